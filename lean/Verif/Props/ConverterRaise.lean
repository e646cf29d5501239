import Verif.Props.Converter
import Verif.Spec.Interrupt

/-!
# C152: Jacobians of conversions after a call that raised
-/

namespace LRVB

/-! ### Specification -/

/-- The arguments of a call of one of the four Jacobian methods: the parameterizations and the point. -/
structure JacCall where
  freeIn : Bool
  freeOut : Bool
  x : List ℝ

namespace Converter

/-- The converter after a sequence of Jacobian calls, whether they return or raise. -/
noncomputable def runJac (c : Converter) : List JacCall → Converter
  | [] => c
  | a :: as => (c.jacobian a.freeIn a.freeOut a.x).1.runJac as

/-- All calls of the sequence return. -/
def AllReturn (c : Converter) : List JacCall → Prop
  | [] => True
  | a :: as => (∃ J, (c.jacobian a.freeIn a.freeOut a.x).2 = .ok J) ∧
      (c.jacobian a.freeIn a.freeOut a.x).1.AllReturn as

/-! ### Lemmas -/

theorem convert_conv (c : Converter) (fi fo : Bool) (x : List ℝ) : (c.convert fi fo x).1.conv = c.conv := by
  simp only [convert]
  split
  · rfl
  · split <;> rfl

theorem trace_conv (c : Converter) (fi fo : Bool) (x : List ℝ) : (c.trace fi fo x).conv = c.conv := by
  simp only [trace]
  split <;> exact c.convert_conv fi fo x

theorem jacobian_conv (c : Converter) (fi fo : Bool) (x : List ℝ) : (c.jacobian fi fo x).1.conv = c.conv := by
  simp only [jacobian]
  split
  · rfl
  · split
    · exact c.trace_conv fi fo x
    · split <;> exact c.trace_conv fi fo x

theorem trace_parOut (c : Converter) (hc : ∀ p q, (c.conv p q).1.blank = q.blank) (fi fo : Bool) (x : List ℝ) :
    (c.trace fi fo x).parOut.blank = c.parOut.blank := by
  simp only [trace]
  split
  · exact c.convert_parOut hc fi fo x
  · simp only [Param.mark_blank]; exact c.convert_parOut hc fi fo x

theorem trace_hasBox (c : Converter) (hc : ∀ p q, (c.conv p q).1.blank = q.blank) (fi fo : Bool) (x : List ℝ)
    (hb : c.parOut.hasBox = true) : (c.trace fi fo x).parOut.hasBox = true := by
  simp only [trace]
  split
  · rename_i e he
    simp only [convert, he]
    exact hb
  · exact Param.mark_hasBox hb (c.convert_parOut hc fi fo x)

theorem jacobian_parOut (c : Converter) (hc : ∀ p q, (c.conv p q).1.blank = q.blank) (fi fo : Bool) (x : List ℝ) :
    (c.jacobian fi fo x).1.parOut.blank = c.parOut.blank := by
  have ht := c.trace_parOut hc fi fo x
  simp only [jacobian]
  split
  · rfl
  · split
    · exact ht
    · split
      · exact ht
      · split <;> simp only [Param.mark_blank, Param.setVector_blank] <;> exact ht

theorem jacobian_hasBox (c : Converter) (hc : ∀ p q, (c.conv p q).1.blank = q.blank) (fi fo : Bool) (x : List ℝ)
    (hb : c.parOut.hasBox = true) : (c.jacobian fi fo x).1.parOut.hasBox = true := by
  have ht := c.trace_parOut hc fi fo x
  have hh := c.trace_hasBox hc fi fo x hb
  simp only [jacobian]
  split
  · exact hb
  · split
    · exact hh
    · split
      · exact hh
      · rw [if_pos hb]
        exact Param.mark_hasBox hb ((Param.setVector_blank _ _).trans ht)

theorem runJac_hasBox (calls : List JacCall) : ∀ c : Converter, (∀ p q, (c.conv p q).1.blank = q.blank) →
    c.parOut.hasBox = true → (c.runJac calls).parOut.hasBox = true := by
  induction calls with
  | nil => exact fun _ _ hb => hb
  | cons a as ih =>
    intro c hc hb
    exact ih _ (by rw [c.jacobian_conv]; exact hc) (c.jacobian_hasBox hc _ _ _ hb)

theorem jacobian_ok {c : Converter} (hc : ∀ p q, (c.conv p q).1.blank = q.blank) {fi fo : Bool} {x : List ℝ} {J : Arr}
    (h : (c.jacobian fi fo x).2 = .ok J) (hp : c.parOut.Plain) {w : List ℝ} (hw : c.parOut.getVector = .ok w) :
    c.parOut.setVector w = ((c.jacobian fi fo x).1.parOut, none) := by
  have ht := c.trace_parOut hc fi fo x
  simp only [jacobian, hw, Param.hasBox_plain.2 hp] at h ⊢
  split at h
  · cases h
  · rename_i J' hJ
    split at h
    · cases h
    · rename_i hs
      simp only at h ⊢
      split at h
      · cases h
      · rename_i hv
        rw [if_neg (by simp)]
        have e : c.parOut.setVector w = (c.trace fi fo x).parOut.setVector w := setPar_eq (free := false) (x := w) ht hv
        rw [e]
        exact Prod.ext rfl hv

end Converter

mutual
theorem Param.hasBox_mark : ∀ {p q : Param}, q.leaves ≠ [] → p.blank = q.blank → (p.mark true).hasBox = true
  | .leaf l, _, _, _ => rfl
  | .dict h es, .leaf l, _, hb => by simp [Param.blank] at hb
  | .dict h es, .dict h' es', hl, hb => by
    simp only [Param.blank, Param.dict.injEq] at hb
    exact Entries.hasBox_mark hl hb.2
theorem Entries.hasBox_mark : ∀ {es es' : Entries}, es'.leaves ≠ [] → es.blank = es'.blank → (es.mark true).hasBox = true
  | .nil, .nil, hl, _ => absurd rfl hl
  | .nil, .cons _ _ _, _, hb => by simp [Entries.blank] at hb
  | .cons _ _ _, .nil, hl, _ => absurd rfl hl
  | .cons k p rest, .cons k' p' rest', hl, hb => by
    simp only [Entries.blank, Entries.cons.injEq] at hb
    simp only [Entries.mark, Entries.hasBox, Bool.or_eq_true]
    by_cases h : p'.leaves = []
    · exact Or.inr (Entries.hasBox_mark (by simpa [Entries.leaves, h] using hl) hb.2.2)
    · exact Or.inl (Param.hasBox_mark h hb.2.1)
end

/-! ### C152 -/

/-- **C152** fails: if the user's converter raises in a Jacobian call, then the exception is raised, and the output parameter
holds differentiation placeholders afterwards, and still does after any further Jacobian calls, also successful
ones: these read the placeholders and put them back. -/
theorem C152_counterexample (c : Converter) (hc : ∀ p q, (c.conv p q).1.blank = q.blank) (hl : c.parOut.leaves ≠ [])
    {w : List ℝ} (hw : c.parOut.getVector = .ok w) (freeIn freeOut : Bool) (x : List ℝ) (e : PyErr)
    (hx : (setPar c.parIn x freeIn).2 = none)
    (he : (c.conv ((setPar c.parIn x freeIn).1.mark false) c.parOut).2 = some e) (calls : List JacCall) :
    (c.jacobian freeIn freeOut x).2 = .error e ∧
    ¬ ((c.jacobian freeIn freeOut x).1.runJac calls).parOut.Plain := by
  have hF : agJac (c.valueAt freeIn freeOut) x = .error e := by
    simp only [agJac, Converter.valueAt, Converter.convert, hx, he]
    rfl
  have hj : c.jacobian freeIn freeOut x = (c.trace freeIn freeOut x, .error e) := by
    simp only [Converter.jacobian, hw, hF]
  rw [hj]
  refine ⟨rfl, fun hp => ?_⟩
  have hb : (c.trace freeIn freeOut x).parOut.hasBox = true := by
    simp only [Converter.trace, hx]
    exact Param.hasBox_mark hl (c.convert_parOut hc freeIn freeOut x)
  have := Converter.runJac_hasBox calls (c.trace freeIn freeOut x) (by rw [c.trace_conv]; exact hc) hb
  rw [Param.hasBox_plain.2 hp] at this
  cases this

/-- **C152**, the part that holds: as long as all Jacobian calls return, the output parameter keeps its vector
as plain numbers, whatever the sequence of calls; and in any state, `set_vector` with plain numbers on the output
parameter removes the placeholders.  Missing: calls that raise (`C152_counterexample`). -/
theorem C152_returned_partial {eigh : Eigh} (hei : EighContract eigh) (c : Converter)
    (hc : ∀ p q, (c.conv p q).1.blank = q.blank) (hb : Built eigh c.parOut) (hp : c.parOut.HasParams)
    (hv : c.parOut.Proper) (hpl : c.parOut.Plain) (calls : List JacCall) :
    (c.AllReturn calls → ∃ w, c.parOut.getVector = .ok w ∧
      (c.runJac calls).parOut.getVector = .ok w ∧ (c.runJac calls).parOut.Plain) ∧
    ∀ u : List ℝ, u.length = c.parOut.vecSize → ∃ q, (c.runJac calls).parOut.setVector u = (q, none) ∧
      q.getVector = .ok u ∧ q.Plain := by
  obtain ⟨w, hw, hwl⟩ := Param.getVector_proper c.parOut (hb.wf hei) hp hv
  refine ⟨fun hr => ⟨w, hw, ?_⟩, fun u hu => ?_⟩
  · have main : ∀ (calls : List JacCall) (d : Converter), d.AllReturn calls → (∀ p q, (d.conv p q).1.blank = q.blank) →
        d.parOut.blank = c.parOut.blank → d.parOut.getVector = .ok w → d.parOut.Plain →
        (d.runJac calls).parOut.getVector = .ok w ∧ (d.runJac calls).parOut.Plain := by
      intro calls
      induction calls with
      | nil => exact fun d _ _ _ hw hp => ⟨hw, hp⟩
      | cons a as ih =>
        intro d hr hd hbl hdw hdp
        obtain ⟨⟨J, hJ⟩, hr'⟩ := hr
        have hset := Converter.jacobian_ok hd hJ hdp hdw
        have hset' : c.parOut.setVector w = ((d.jacobian a.freeIn a.freeOut a.x).1.parOut, none) := by
          have hcn : (c.parOut.setVector w).2 = none := by rw [c.parOut.setVector_ok (hb.wf hei) w hwl]
          have := setPar_eq (free := false) (x := w) hbl.symm hcn
          rw [← hset]
          exact this.symm
        refine ih _ hr' (by rw [d.jacobian_conv]; exact hd) ((d.jacobian_parOut hd _ _ _).trans hbl) ?_ ?_
        · have := c.parOut.setVector_ok (hb.wf hei) w hwl
          rw [hset'] at this
          rw [(Prod.mk.inj this).1]
          exact c.parOut.getVector_vecP (hb.wf hei) hp w hwl
        · have := Param.setVector_plain d.parOut w (by rw [hset])
          rwa [hset] at this
    exact main calls c hr hc rfl hw hpl
  · have hbl : (c.runJac calls).parOut.blank = c.parOut.blank := by
      have : ∀ (calls : List JacCall) (d : Converter), (∀ p q, (d.conv p q).1.blank = q.blank) →
          (d.runJac calls).parOut.blank = d.parOut.blank := by
        intro calls
        induction calls with
        | nil => exact fun _ _ => rfl
        | cons a as ih =>
          intro d hd
          exact (ih _ (by rw [d.jacobian_conv]; exact hd)).trans (d.jacobian_parOut hd _ _ _)
      exact this calls c hc
    have h0 := c.parOut.setVector_ok (hb.wf hei) u hu
    have h1 : (c.runJac calls).parOut.setVector u = c.parOut.setVector u :=
      setPar_eq (free := false) hbl.symm (congrArg Prod.snd h0)
    refine ⟨c.parOut.vecP u, by rw [h1, h0], c.parOut.getVector_vecP (hb.wf hei) hp u hu, ?_⟩
    have := Param.setVector_plain c.parOut u (by rw [h0])
    rwa [h0] at this

/-- A converter that refuses negative numbers and otherwise copies the vector. -/
noncomputable def exRefuse : Converter :=
  ⟨.leaf exVector, .leaf exVector, fun p q => match p.getVector with
    | .error e => (q, some e)
    | .ok v => if v.all (0 ≤ ·) then q.setVector v else (q, some .valueError)⟩

/-- The hypotheses are met by this converter: the first call raises, the second returns. -/
example : (∀ p q, (exRefuse.conv p q).1.blank = q.blank) ∧ exRefuse.parOut.leaves ≠ [] ∧
    exRefuse.parOut.getVector = .ok [0, 1] ∧ (setPar exRefuse.parIn [-1, 0] false).2 = none ∧
    (exRefuse.conv ((setPar exRefuse.parIn [-1, 0] false).1.mark false) exRefuse.parOut).2 = some .valueError ∧
    (exRefuse.jacobian false false [-1, 0]).1.AllReturn [⟨false, false, [1, 1]⟩] ∧
    exRefuse.AllReturn [⟨false, false, [1, 1]⟩] ∧ exRefuse.parOut.Plain := by
  have h1 : ¬ (1 : ℝ) ≤ 0 := by norm_num
  have hJ : ∀ b b', ∃ J, ((⟨.leaf { exVector with boxed := b }, .leaf { exVector with boxed := b' }, exRefuse.conv⟩ :
      Converter).jacobian false false [1, 1]).2 = .ok J := by
    intro b b'
    simp [exRefuse, Converter.jacobian, Converter.trace, Converter.convert, Converter.valueAt, Converter.readOut, setPar,
      Param.getVector, Param.setVector, exVector, Leaf.getVector, Leaf.setVector, Arr.vec, agJac, Param.mark, Leaf.set,
      py_ok_bind, Arr.size]
  refine ⟨fun p q => ?_, by simp [exRefuse, Param.leaves], ?_, ?_, ?_, ⟨?_, trivial⟩, ⟨hJ false false, trivial⟩, rfl⟩
  · simp only [exRefuse]
    split
    · rfl
    · split
      · exact Param.setVector_blank _ _
      · rfl
  · simp [exRefuse, Param.getVector, exVector, Leaf.getVector, Arr.vec]
  · simp [exRefuse, setPar, Param.setVector, exVector, Leaf.setVector, Leaf.set, Arr.vec, Arr.size]
  · simp [exRefuse, setPar, Param.setVector, exVector, Leaf.setVector, Leaf.set, Arr.vec, Arr.size, Param.mark,
      Param.getVector, Leaf.getVector, h1]
  · simp [exRefuse, Converter.jacobian, Converter.trace, Converter.convert, Converter.valueAt, Converter.readOut, setPar,
      Param.getVector, Param.setVector, exVector, Leaf.getVector, Leaf.setVector, Arr.vec, agJac, Param.mark, Leaf.set,
      py_ok_bind, Arr.size, h1]

end LRVB
