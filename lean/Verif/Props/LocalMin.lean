import Verif.Lemmas.Embed
import Verif.Props.FullRank

/-!
# C149: optimizing over free vectors is optimizing over legal values
-/

namespace LRVB

open Flt

/-- `a` and `b` differ by less than `ε` in each of the first `n` entries. -/
def Within (n : ℕ) (ε : ℝ) (a b : List ℝ) : Prop := ∀ i < n, |a.getD i 0 - b.getD i 0| < ε

/-- The free vector `x` is a local minimizer of the objective `f(free_to_vector(x))`. -/
def FreeLocalMin (p : Param) (f : List ℝ → ℝ) (x : List ℝ) : Prop :=
  ∃ v, p.freeToVectorVal x = .ok v ∧ ∃ ε > 0, ∀ y w, y.length = p.freeSize →
    p.freeToVectorVal y = .ok w → Within p.freeSize ε y x → f v ≤ f w

/-- The vector `v` is a local minimizer of `f` among the vectors of the legal values, those that
`free_to_vector` returns. -/
def LegalLocalMin (p : Param) (f : List ℝ → ℝ) (v : List ℝ) : Prop :=
  ∃ ε > 0, ∀ y w, y.length = p.freeSize → p.freeToVectorVal y = .ok w →
    Within p.vecSize ε w v → f v ≤ f w

/-- **C149** (continuity of the inverse) Small changes of the vector are small changes of the free
vector, and conversely, at every free vector. -/
theorem C149_homeomorphism {eigh : Eigh} (he : EighContract eigh) (p : Param) (hb : Built eigh p)
    (hp : p.HasParams) (x v : List ℝ) (hx : x.length = p.freeSize)
    (hv : p.freeToVectorVal x = .ok v) (ε : ℝ) (hε : 0 < ε) :
    (∃ δ > 0, ∀ y w, y.length = p.freeSize → p.freeToVectorVal y = .ok w →
      Within p.vecSize δ w v → Within p.freeSize ε y x) ∧
    (∃ δ > 0, ∀ y w, y.length = p.freeSize → p.freeToVectorVal y = .ok w →
      Within p.freeSize δ y x → Within p.vecSize ε w v) := by
  have hw := hb.wf he
  have hval := p.freeToVectorVal_ok hw hp
  have hvx : v = p.ftvP x := by
    rw [(hval x hx).1] at hv; exact (Except.ok.inj hv).symm
  constructor
  · obtain ⟨δ, hδ, h⟩ := p.emb_ftvP hw hx ε hε
    refine ⟨δ, hδ, fun y w hy hyw hc => ?_⟩
    rw [(hval y hy).1] at hyw
    cases hyw
    subst hvx
    exact h y hy hc
  · obtain ⟨Γ, h1, h2, _⟩ := (p.smooth_ftvP hw).exists_fun
    have hc : Continuous Γ := continuous_pi fun i => (h1 i).continuous
    obtain ⟨δ, hδ, h⟩ := Metric.continuous_iff.mp hc (toVec p.freeSize x) ε hε
    refine ⟨δ, hδ, fun y w hy hyw hcl => ?_⟩
    rw [(hval y hy).1] at hyw
    cases hyw
    subst hvx
    have := h (toVec p.freeSize y) ((dist_toVec_lt hδ).mpr hcl)
    rw [← h2 y hy, ← h2 x hx] at this
    exact (dist_toVec_lt hε).mp this

/-- **C149** (local minima) For every parameter and dictionary and every objective, smooth or not, the
free vector `x` is a local minimizer of the objective in the free parameterization exactly when its
vector is a local minimizer among the vectors of legal values. -/
theorem C149_local_minima {eigh : Eigh} (he : EighContract eigh) (p : Param) (hb : Built eigh p)
    (hp : p.HasParams) (f : List ℝ → ℝ) (x v : List ℝ) (hx : x.length = p.freeSize)
    (hv : p.freeToVectorVal x = .ok v) :
    FreeLocalMin p f x ↔ LegalLocalMin p f v := by
  constructor
  · rintro ⟨v', hv', ε, hε, h⟩
    rw [hv] at hv'
    cases hv'
    obtain ⟨δ, hδ, h1⟩ := (C149_homeomorphism he p hb hp x v hx hv ε hε).1
    exact ⟨δ, hδ, fun y w hy hyw hc => h y w hy hyw (h1 y w hy hyw hc)⟩
  · rintro ⟨ε, hε, h⟩
    obtain ⟨δ, hδ, h1⟩ := (C149_homeomorphism he p hb hp x v hx hv ε hε).2
    exact ⟨v, hv, δ, hδ, fun y w hy hyw hc => h y w hy hyw (h1 y w hy hyw hc)⟩

/-- **C149** (no restriction) With as many free values as vector entries, every vector close enough to
`free_to_vector(x)` is again `free_to_vector` of some free vector, so that the local minimum is one
among all vectors. -/
theorem C149_open {eigh : Eigh} (he : EighContract eigh) (p : Param) (hb : Built eigh p)
    (hp : p.HasParams) (hs : p.freeSize = p.vecSize) (x v : List ℝ) (hx : x.length = p.freeSize)
    (hv : p.freeToVectorVal x = .ok v) :
    ∃ ε > 0, ∀ w : List ℝ, w.length = p.vecSize → Within p.vecSize ε w v →
      ∃ y, y.length = p.freeSize ∧ p.freeToVectorVal y = .ok w := by
  have hw := hb.wf he
  have hval := p.freeToVectorVal_ok hw hp
  have hvx : v = p.ftvP x := by
    rw [(hval x hx).1] at hv; exact (Except.ok.inj hv).symm
  obtain ⟨δ, hδ, h⟩ := open_of_rank hs (p.smooth_ftvP hw) hx (p.rank_ftvP hw hx) 1 one_pos
  refine ⟨δ, hδ, fun w hwl hc => ?_⟩
  subst hvx
  obtain ⟨y, hy, -, hyw⟩ := h (toVec p.vecSize w) ((dist_toVec_lt hδ).mpr hc)
  refine ⟨y, hy, ?_⟩
  rw [(hval y hy).1, toVec_inj (hval y hy).2 hwl hyw]

/-- The hypotheses are met, with an objective that is not differentiable at its minimum: the distance
of the first entry from its value at `[1, 2, 3]`, for the example dictionary. -/
example : ∃ (eigh : Eigh) (p : Param) (x v : List ℝ) (f : List ℝ → ℝ), EighContract eigh ∧ Built eigh p ∧
    p.HasParams ∧ p.freeSize = p.vecSize ∧ x.length = p.freeSize ∧ p.freeToVectorVal x = .ok v ∧
    FreeLocalMin p f x ∧ LegalLocalMin p f v := by
  obtain ⟨eigh, he⟩ := exists_eigh
  have hx : ([1, 2, 3] : List ℝ).length = exDict.freeSize := by rw [exDict_freeSize]; rfl
  have hv := (exDict.freeToVectorVal_ok ((exDict_built eigh).wf he) exDict_hasParams _ hx).1
  have hm : LegalLocalMin exDict (fun w => |w.getD 0 0 - (exDict.ftvP [1, 2, 3]).getD 0 0|)
      (exDict.ftvP [1, 2, 3]) :=
    ⟨1, one_pos, fun y w _ _ _ => by simp only [sub_self, abs_zero]; exact abs_nonneg _⟩
  exact ⟨eigh, exDict, [1, 2, 3], _, _, he, exDict_built eigh, exDict_hasParams,
    by rw [exDict_vecSize, exDict_freeSize], hx, hv,
    (C149_local_minima he exDict (exDict_built eigh) exDict_hasParams _ _ _ hx hv).mpr hm, hm⟩

end LRVB
