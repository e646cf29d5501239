import Verif.Model.HeapCg
import Verif.Spec.Heap

/-!
# Specification vocabulary: programs that hold a conjugate gradient solver
-/

namespace LRVB

noncomputable section

/-- The solver with the contents of its arrays as they are now: a state of the model without references. -/
def CgWorld.view (w : CgWorld) : CgState :=
  ⟨w.s.dim, fun v => w.s.hvp (w.mem.vals w.s.x0) v, w.mem.vals w.s.x0, w.s.precond.map w.mem.read, w.s.tol,
    w.s.vecs.map w.mem.vals, w.s.hinvVecs.map w.mem.vals, w.s.masks.map fun k => toMask (w.mem.vals k),
    w.s.times, w.s.infos, w.s.cg, w.s.clock, w.s.ticks⟩

/-- What a program does with a solver and arrays. -/
inductive CgEvent
  | subsets (vec : List ℕ) (masks : List (List ℕ)) (verbose : Bool) (printEvery : ℤ)
  | solve (vec : List ℕ) (x0 : Option (List ℕ))
  /-- `initialize()` -/
  | clear
  | setPrecond (r : Option Ref)
  | newArray (a : Arr)
  | assign (w : Assign)

/-- The state after an event. -/
def CgEvent.run (w : CgWorld) : CgEvent → CgWorld
  | .subsets vec masks verbose pe => (w.getHinvVecSubsets vec masks verbose pe).1
  | .solve vec x0 => (w.getHinvVec vec x0).1
  | .clear => w.reset
  | .setPrecond r => w.setPrecond r
  | .newArray a => ⟨(w.mem.alloc a).1, w.s⟩
  | .assign a => ⟨w.mem.write a.r a.i a.y, w.s⟩

/-- The arrays an event uses exist. -/
def CgEvent.Ok (w : CgWorld) : CgEvent → Prop
  | .subsets vec masks _ _ => (Ref.vec vec).Alive w.mem ∧ ∀ k ∈ masks, (Ref.vec k).Alive w.mem
  | .solve vec x0 => (Ref.vec vec).Alive w.mem ∧ ∀ k ∈ x0, (Ref.vec k).Alive w.mem
  | .setPrecond r => ∀ k ∈ r, k.Alive w.mem
  | .assign a => a.r.Alive w.mem
  | _ => True

/-- The state after a program. -/
def runCg (w : CgWorld) (es : List CgEvent) : CgWorld := es.foldl (fun w e => e.run w) w

/-- Every event uses arrays that exist. -/
def okCg (w : CgWorld) : List CgEvent → Prop
  | [] => True
  | e :: es => e.Ok w ∧ okCg (e.run w) es

/-- The states programs can reach that make a solver at some point. -/
inductive CgReached (cg : CgSolver) (clock : ℕ → ℝ) (hvp : List ℝ → List ℝ → Py (List ℝ)) : CgWorld → Prop
  | start {m : Mem} {x0 : List ℕ} (h : (Ref.vec x0).Alive m) : CgReached cg clock hvp (CgWorld.new m cg clock hvp x0)
  | step {w : CgWorld} (h : CgReached cg clock hvp w) (e : CgEvent) (ok : e.Ok w) : CgReached cg clock hvp (e.run w)

/-- The memory of the arrays that a solver keeps: the point, the recorded masks, vectors and solutions. -/
def CgWorld.kept (w : CgWorld) : List ℕ := w.s.x0 ++ (w.s.masks ++ w.s.vecs ++ w.s.hinvVecs).flatten

/-- The program changes no array that the solver keeps at that time. -/
def leavesKept (w : CgWorld) : List CgEvent → Prop
  | [] => True
  | e :: es => (∀ a, e = .assign a → ∀ k ∈ a.r.addr, k ∉ w.kept) ∧ leavesKept (e.run w) es

end

end LRVB
