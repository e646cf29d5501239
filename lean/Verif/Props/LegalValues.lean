import Verif.Lemmas.LegalVec
import Verif.Props.LocalMin
import Mathlib.Analysis.Matrix.PosDef

/-!
# C150: the free vectors are exactly the legal values
-/

namespace LRVB

open Flt

/-- **C150** (image) A vector of the right length is `free_to_vector` of a free vector exactly when it is
the vector of legal values: strictly between the bounds, positive definite beyond `diag_lb`, positive
rows that sum to one, in the subspace.  The free vector is unique. -/
theorem C150_image {eigh : Eigh} (he : EighContract eigh) (p : Param) (hb : Built eigh p)
    (hp : p.HasParams) (v : List ℝ) (hv : v.length = p.vecSize) :
    p.LegalVec v ↔ ∃! x : List ℝ, x.length = p.freeSize ∧ p.freeToVectorVal x = .ok v := by
  have hw := hb.wf he
  have hval := p.freeToVectorVal_ok hw hp
  rw [p.legal_ftvP hw v hv]
  constructor
  · rintro ⟨x, hx, h⟩
    refine ⟨x, ⟨hx, by rw [(hval x hx).1, h]⟩, ?_⟩
    rintro y ⟨hy, h2⟩
    rw [(hval y hy).1] at h2
    have h3 : p.ftvP y = p.ftvP x := by rw [h]; exact Except.ok.inj h2
    have h4 : p.freeP y = p.freeP x := by
      rw [← p.vecP_ftvP hw y hy, ← p.vecP_ftvP hw x hx, h3]
    have h5 := p.getFree_freeP hw hp y hy
    rw [h4, p.getFree_freeP hw hp x hx] at h5
    exact (Except.ok.inj h5).symm
  · rintro ⟨x, ⟨hx, h⟩, -⟩
    rw [(hval x hx).1] at h
    exact ⟨x, hx, Except.ok.inj h⟩

/-- **C150** (round trip through the vector) After `set_vector` with the vector of legal values,
`get_free` returns the free vector of these values: `free_to_vector` takes it back to the vector, and
`set_free` with it puts the object in the same state. -/
theorem C150_set_vector_get_free {eigh : Eigh} (he : EighContract eigh) (p : Param)
    (hb : Built eigh p) (hp : p.HasParams) (v : List ℝ) (hv : v.length = p.vecSize)
    (hl : p.LegalVec v) :
    ∃ p' x, p.setVector v = (p', none) ∧ p'.getFree = .ok x ∧ x.length = p.freeSize ∧
      p.freeToVectorVal x = .ok v ∧ p.setFree x = (p', none) := by
  have hw := hb.wf he
  obtain ⟨x, hx, rfl⟩ := (p.legal_ftvP hw v hv).mp hl
  refine ⟨p.freeP x, x, ?_, p.getFree_freeP hw hp x hx, hx, (p.freeToVectorVal_ok hw hp x hx).1,
    p.setFree_ok hw x hx⟩
  rw [p.setVector_ok hw _ hv, p.vecP_ftvP hw x hx]

/-- **C150** (local minima) A free vector is a local minimizer of the objective in the free
parameterization exactly when its vector is a local minimizer among the vectors of legal values. -/
theorem C150_local_minima {eigh : Eigh} (he : EighContract eigh) (p : Param) (hb : Built eigh p)
    (hp : p.HasParams) (f : List ℝ → ℝ) (x v : List ℝ) (hx : x.length = p.freeSize)
    (hv : p.freeToVectorVal x = .ok v) :
    FreeLocalMin p f x ↔ p.LegalVec v ∧ ∃ ε > 0, ∀ w : List ℝ, w.length = p.vecSize → p.LegalVec w →
      Within p.vecSize ε w v → f v ≤ f w := by
  have hval := p.freeToVectorVal_ok (hb.wf he) hp
  have hlen : ∀ y w, y.length = p.freeSize → p.freeToVectorVal y = .ok w → w.length = p.vecSize := by
    intro y w hy h
    have := (hval y hy)
    rw [this.1] at h
    rw [← Except.ok.inj h]; exact this.2
  have himg : ∀ y w, y.length = p.freeSize → p.freeToVectorVal y = .ok w → p.LegalVec w := by
    intro y w hy h
    have hwl := hlen y w hy h
    rw [p.legal_ftvP (hb.wf he) w hwl]
    rw [(hval y hy).1] at h
    exact ⟨y, hy, Except.ok.inj h⟩
  rw [C149_local_minima he p hb hp f x v hx hv]
  constructor
  · rintro ⟨ε, hε, h⟩
    refine ⟨himg x v hx hv, ε, hε, fun w hwl hlw hc => ?_⟩
    obtain ⟨y, ⟨hy, hyw⟩, -⟩ := (C150_image he p hb hp w hwl).mp hlw
    exact h y w hy hyw hc
  · rintro ⟨-, ε, hε, h⟩
    exact ⟨ε, hε, fun y w hy hyw hc => h w (hlen y w hy hyw) (himg y w hy hyw) hc⟩

/-- The hypotheses are met and the legal vectors are neither all nor none: for the example dictionary,
a positive scalar and a vector of two numbers, `[1, 2, 3]` is legal and `[-1, 2, 3]` is not. -/
example : ∃ (eigh : Eigh) (p : Param) (v w : List ℝ), EighContract eigh ∧ Built eigh p ∧ p.HasParams ∧
    v.length = p.vecSize ∧ w.length = p.vecSize ∧ p.LegalVec v ∧ ¬ p.LegalVec w := by
  obtain ⟨eigh, he⟩ := exists_eigh
  refine ⟨eigh, exDict, [1, 2, 3], [-1, 2, 3], he, exDict_built eigh, exDict_hasParams,
    by rw [exDict_vecSize]; rfl, by rw [exDict_vecSize]; rfl, ?_, ?_⟩
  · simp [exDict, exSub, exScalar, exVector, Param.push, Param.emptyDict, Param.LegalVec,
      Entries.LegalVec, Kind.LegalVec, Entries.assign, Param.name, Param.vecSize, Kind.vecSize, Leaf.vecSize]
  · simp [exDict, exSub, exScalar, exVector, Param.push, Param.emptyDict, Param.LegalVec,
      Entries.LegalVec, Kind.LegalVec, Entries.assign, Param.name, Param.vecSize, Kind.vecSize, Leaf.vecSize]

/-- The identity is a legal value of a matrix with `diag_lb = 0`; the matrix with rows `(1, 2)` and
`(2, 1)` is not. -/
example : (Kind.posdef 2 0).LegalVec [1, 0, 1] ∧ ¬ (Kind.posdef 2 0).LegalVec [1, 2, 1] := by
  constructor
  · have : (Matrix.of (fun i j : Fin 2 => ([1, 0, 1] : List ℝ).getD
        (max i j * (max i j + 1) / 2 + min (i : ℕ) j) 0) - (0 : ℝ) • (1 : Matrix (Fin 2) (Fin 2) ℝ)) = 1 := by
      ext i j
      fin_cases i <;> fin_cases j <;> simp
    simp only [Kind.LegalVec, LegalTri]
    rw [this]
    exact Matrix.PosDef.one
  · intro h
    have := Matrix.PosDef.det_pos h
    simp [Matrix.det_fin_two] at this
    norm_num at this

end LRVB
