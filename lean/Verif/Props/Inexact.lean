import Verif.Props.CgSolver
import Mathlib.Analysis.InnerProductSpace.PiL2
import Mathlib.Algebra.Order.Chebyshev

/-!
# Inexact subset solves: C168
-/

namespace LRVB

noncomputable section

/-- The Euclidean norm. -/
def l2 {n : ℕ} (v : Fin n → ℝ) : ℝ := √(∑ i, v i ^ 2)

theorem l2_eq {n : ℕ} (v : Fin n → ℝ) : l2 v = ‖(WithLp.toLp 2 v : EuclideanSpace ℝ (Fin n))‖ := by
  rw [EuclideanSpace.norm_eq, l2]
  simp

theorem l2_add_le {n : ℕ} (v w : Fin n → ℝ) : l2 (v + w) ≤ l2 v + l2 w := by
  rw [l2_eq, l2_eq, l2_eq, WithLp.toLp_add]
  exact norm_add_le _ _

theorem l2_nonneg {n : ℕ} (v : Fin n → ℝ) : 0 ≤ l2 v := Real.sqrt_nonneg _

theorem l2_sq {n : ℕ} (v : Fin n → ℝ) : l2 v ^ 2 = ∑ i, v i ^ 2 :=
  Real.sq_sqrt (Finset.sum_nonneg fun i _ => sq_nonneg (v i))

theorem list_cauchy (l : List ℝ) : l.sum ^ 2 ≤ l.length * (l.map (· ^ 2)).sum := by
  have h := sq_sum_le_card_mul_sum_sq (s := Finset.univ) (f := fun i : Fin l.length => l[i.1])
  rw [Fin.sum_univ_getElem] at h
  have h2 : (l.map (· ^ 2)).sum = ∑ i : Fin l.length, l[i.1] ^ 2 := by
    rw [← Fin.sum_univ_fun_getElem]
  rw [h2]
  simpa using h

/-- The squared norms of the parts of a vector add up to that of the vector. -/
theorem masked_norms {n : ℕ} {vec : List ℝ} (hvec : vec.length = n) {masks : List Mask} {vms : List (List ℝ)}
    (hp : PartitionsMask masks (List.replicate n true))
    (hf : List.Forall₂ (fun m vm => MaskedVec m vec vm) masks vms) :
    (vms.map fun vm => l2 (fun i : Fin n => vm.getD i 0) ^ 2).sum = l2 (fun i : Fin n => vec.getD i 0) ^ 2 := by
  have hg : ∀ (v : List ℝ) (i : ℕ), (v.map (· ^ 2)).getD i 0 = v.getD i 0 ^ 2 := by
    intro v i
    rw [List.getD_eq_getElem?_getD, List.getD_eq_getElem?_getD, List.getElem?_map]
    cases v[i]? <;> simp
  have hf2 : List.Forall₂ (fun m vm => MaskedVec m (vec.map (· ^ 2)) vm) masks (vms.map fun v => v.map (· ^ 2)) := by
    rw [List.forall₂_map_right_iff]
    refine hf.imp fun m vm h => ⟨by simpa using h.1, by simpa using h.2.1, fun i => ?_⟩
    rw [hg, hg, h.2.2 i]
    split_ifs <;> simp
  have hs : ∀ i, (vms.map fun v => v.getD i 0 ^ 2).sum = vec.getD i 0 ^ 2 := by
    intro i
    have := masked_sum hp hf2 i
    rw [full_getD (vec.map (· ^ 2)) (by simpa using hvec), hg, List.map_map] at this
    simpa only [Function.comp_def, hg] using this
  simp only [l2_sq, ← hs]
  clear hs hf hf2 hp
  induction vms with
  | nil => simp
  | cons v vs ih => simp only [List.map_cons, List.sum_cons, ih, Finset.sum_add_distrib]

/-- **C168** Let the operator be the linear map `L`, and let conjugate gradient return solutions whose residual is at most
`tol` times the norm of the right hand side.  If `k` masks partition the indices, the sum of the recorded solutions
solves the full system up to `tol * √k` times the norm of the vector; and if `L` is bounded below by `c`, the sum differs
from the exact solution by at most `1 / c` times that. -/
theorem C168_inexact_subsets (s : CgState) {n : ℕ} (L : (Fin n → ℝ) →ₗ[ℝ] (Fin n → ℝ))
    (hop : ∀ x, s.op (List.ofFn x) = .ok (List.ofFn (L x))) (htol : 0 ≤ s.tol)
    (hcg : ∀ b : Fin n → ℝ, ∃ (x r : Fin n → ℝ) (info : ℤ),
      s.cg s.dim s.op (List.ofFn b) none s.tol s.preconditioner = .ok (List.ofFn x, info) ∧
      s.op (List.ofFn x) = .ok (List.ofFn r) ∧ l2 (r - b) ≤ s.tol * l2 b)
    (vec : List ℝ) (hvec : vec.length = n) (masks : List Mask)
    (hp : PartitionsMask masks (List.replicate n true)) :
    ∃ (s' : CgState) (hvs : List (List ℝ)),
      s.getHinvVecSubsets vec masks = (s', none) ∧ s'.hinvVecs = s.hinvVecs ++ hvs ∧
      hvs.length = masks.length ∧ (∀ v ∈ hvs, v.length = n) ∧
      l2 ((L fun i : Fin n => (hvs.map fun v => v.getD i 0).sum) - fun i : Fin n => vec.getD i 0) ≤
        s.tol * √masks.length * l2 (fun i : Fin n => vec.getD i 0) ∧
      ∀ c : ℝ, 0 < c → (∀ x, c * l2 x ≤ l2 (L x)) → ∀ x, (L x = fun i : Fin n => vec.getD i 0) →
        l2 ((fun i : Fin n => (hvs.map fun v => v.getD i 0).sum) - x) ≤
          s.tol * √masks.length * l2 (fun i : Fin n => vec.getD i 0) / c := by
  classical
  choose X R I hI hX hR using hcg
  have hLX : ∀ b, l2 (L (X b) - b) ≤ s.tol * l2 b := fun b => by
    have h := (hop (X b)).symm.trans (hX b)
    injection h with h
    rw [List.ofFn_injective h]
    exact hR b
  set mv : Mask → (Fin n → ℝ) := fun m i => if m.getD i false then vec.getD i 0 else 0 with hmv
  have hofFn : ∀ (m : Mask) (vm : List ℝ), MaskedVec m vec vm → vm = List.ofFn (mv m) := by
    intro m vm h
    rw [← ofFn_toVec (h.1.trans hvec)]
    congr 1
    funext i
    exact h.2.2 i
  obtain ⟨vms, ts, is, k, hf, e⟩ := subsets_ok vec (fun m => List.ofFn (X (mv m))) masks s
    (fun m hm => by rw [hp.lengths m hm, hvec]; simp)
    (fun m _ vm h => ⟨I (mv m), by rw [hofFn m vm h]; exact hI (mv m)⟩)
  have hlen := hf.length_eq
  have hnorms := masked_norms hvec hp hf
  have hsum : ∀ i, (vms.map fun v => v.getD i 0).sum = vec.getD i 0 := fun i => by
    rw [masked_sum hp hf i, full_getD vec hvec]
  have hlin : l2 ((L fun i => ((masks.map fun m => List.ofFn (X (mv m))).map fun v => v.getD i 0).sum) -
      fun i : Fin n => (vms.map fun v => v.getD i 0).sum) ≤
      s.tol * (vms.map fun vm => l2 (fun i : Fin n => vm.getD i 0)).sum := by
    clear e hp hnorms hsum hlen
    induction hf with
    | nil =>
      have : (fun i : Fin n => (0 : ℝ)) = 0 := rfl
      simp [this, l2]
    | @cons m vm ms vms h1 _ ih =>
      have h2 : (fun i : Fin n => (((m :: ms).map fun m => List.ofFn (X (mv m))).map fun v => v.getD i 0).sum) =
          X (mv m) + fun i : Fin n => ((ms.map fun m => List.ofFn (X (mv m))).map fun v => v.getD i 0).sum := by
        funext i
        simp [List.getD_eq_getElem?_getD]
      have h3 : (fun i : Fin n => vm.getD i 0) = mv m := by
        rw [hofFn m vm h1]
        funext i
        simp [List.getD_eq_getElem?_getD]
      have h4 : (fun i : Fin n => ((vm :: vms).map fun v => v.getD i 0).sum) =
          mv m + fun i : Fin n => (vms.map fun v => v.getD i 0).sum := by
        rw [← h3]
        funext i
        simp
      rw [h2, map_add, h4, add_sub_add_comm, List.map_cons, List.sum_cons, mul_add, h3]
      exact (l2_add_le _ _).trans (add_le_add (hLX _) ih)
  have hfin : l2 ((L fun i => ((masks.map fun m => List.ofFn (X (mv m))).map fun v => v.getD i 0).sum) -
      fun i : Fin n => vec.getD i 0) ≤ s.tol * √masks.length * l2 (fun i : Fin n => vec.getD i 0) := by
    have h1 : (fun i : Fin n => (vms.map fun v => v.getD i 0).sum) = fun i : Fin n => vec.getD i 0 := by
      funext i
      exact hsum i
    rw [h1] at hlin
    refine hlin.trans ?_
    rw [mul_assoc]
    refine mul_le_mul_of_nonneg_left ?_ htol
    have h2 := list_cauchy (vms.map fun vm => l2 (fun i : Fin n => vm.getD i 0))
    rw [List.map_map, List.length_map] at h2
    simp only [Function.comp_def] at h2
    rw [hnorms, ← hlen] at h2
    refine abs_le_of_sq_le_sq' ?_ (mul_nonneg (Real.sqrt_nonneg _) (l2_nonneg _)) |>.2
    rwa [mul_pow, Real.sq_sqrt (Nat.cast_nonneg _)]
  refine ⟨_, masks.map fun m => List.ofFn (X (mv m)), e, rfl, by simp, ?_, hfin, ?_⟩
  · intro v hv
    obtain ⟨m, -, rfl⟩ := List.mem_map.mp hv
    simp
  · intro c hc hb x hx
    rw [le_div_iff₀ hc, mul_comm]
    refine (hb _).trans ?_
    rw [map_sub, hx]
    exact hfin

/-- A solver for the operator `v ↦ 2 v` with a relative error of `tol`. -/
def exInexact : CgSolver := fun _ _ b _ tol _ => .ok (b.map fun v => v / 2 * (1 + tol), 0)

/-- The hypotheses of C168 are met by a solver which is not exact. -/
example : ∃ (s : CgState) (L : (Fin 3 → ℝ) →ₗ[ℝ] (Fin 3 → ℝ)), s.tol = 1 / 10 ^ 8 ∧
    (∀ x, s.op (List.ofFn x) = .ok (List.ofFn (L x))) ∧
    (∀ b : Fin 3 → ℝ, ∃ (x r : Fin 3 → ℝ) (info : ℤ),
      s.cg s.dim s.op (List.ofFn b) none s.tol s.preconditioner = .ok (List.ofFn x, info) ∧
      s.op (List.ofFn x) = .ok (List.ofFn r) ∧ l2 (r - b) ≤ s.tol * l2 b) ∧
    (∀ x, 2 * l2 x ≤ l2 (L x)) ∧
    PartitionsMask [[true, false, false], [false, true, true]] (List.replicate 3 true) := by
  have hsm : ∀ (c : ℝ) (v : Fin 3 → ℝ), 0 ≤ c → l2 (c • v) = c * l2 v := by
    intro c v hc
    rw [l2_eq, l2_eq, WithLp.toLp_smul, norm_smul, Real.norm_eq_abs, abs_of_nonneg hc]
  refine ⟨.new exInexact (fun i => i) (fun _ v => .ok (v.map (2 * ·))) [1, 2, 3], (2 : ℝ) • LinearMap.id, rfl,
    fun x => ?_, fun b => ⟨fun i => b i / 2 * (1 + 1 / 10 ^ 8), (1 + 1 / 10 ^ 8 : ℝ) • b, 0, ?_, ?_, ?_⟩, fun x => ?_, ?_⟩
  · change Except.ok ((List.ofFn x).map (2 * ·)) = _
    rw [List.map_ofFn]
    rfl
  · change Except.ok ((List.ofFn b).map fun v => v / 2 * (1 + 1 / 10 ^ 8), (0 : ℤ)) = _
    rw [List.map_ofFn]
    rfl
  · change Except.ok ((List.ofFn fun i => b i / 2 * (1 + 1 / 10 ^ 8)).map (2 * ·)) = _
    rw [List.map_ofFn]
    congr 2
    funext i
    simp only [Function.comp, Pi.smul_apply, smul_eq_mul]
    ring
  · have h : (1 + 1 / 10 ^ 8 : ℝ) • b - b = (1 / 10 ^ 8 : ℝ) • b := by
      rw [add_smul, one_smul, add_sub_cancel_left]
    rw [h, hsm _ _ (by positivity)]
    rfl
  · rw [LinearMap.smul_apply, LinearMap.id_apply, hsm _ _ (by norm_num)]
  · have h := (C60_split_vector [true, true, true]).1
    have e : splitVector [true, true, true] = ([true, false, false], [false, true, true]) := by decide
    rw [e] at h
    exact h

end

end LRVB
