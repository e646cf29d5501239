import Verif.Model.Py

/-!
# The timer — `SparseObjectives.py:34-46`

The system clock is a sequence of readings, an arbitrary one: `time.time()` is set back when the clock of the system
is.  The readings taken by other code in between do not matter and are left out.  What is printed is not modelled.
-/

namespace LRVB

noncomputable section

/-- A `Timer`: `time_dict` in the order of insertion, and `tic_time`, which does not exist before the first `tic`. -/
structure Timer where
  timeDict : List (String × ℝ)
  ticTime : Option ℝ

/-- `d[name] = v`: a key that is present keeps its place. -/
def dictSet (d : List (String × ℝ)) (name : String) (v : ℝ) : List (String × ℝ) :=
  match d with
  | [] => [(name, v)]
  | e :: es => if e.1 = name then (name, v) :: es else e :: dictSet es name v

namespace Timer

/-- `Timer()`: `SparseObjectives.py:36-37`. -/
def new : Timer := ⟨[], none⟩

/-- `tic()`, which reads the clock once: `SparseObjectives.py:38-39`. -/
def tic (t : Timer) (now : ℝ) : Timer := { t with ticTime := some now }

/-- `toc(time_name)`, which reads the clock once: `SparseObjectives.py:40-43`.  The attribute is read after the
clock and before the dictionary is changed. -/
def toc (t : Timer) (name : String) (now : ℝ) : Timer × Py Unit :=
  match t.ticTime with
  | none => (t, .error .attributeError)
  | some s => ({ t with timeDict := dictSet t.timeDict name (now - s) }, .ok ())

/-- A call of a method. -/
inductive Call
  | tic
  | toc (name : String)

/-- A call of a method at a given time; the exception of `toc` is caught by the caller. -/
def call (t : Timer) (now : ℝ) : Call → Timer × Py Unit
  | .tic => (t.tic now, .ok ())
  | .toc name => t.toc name now

/-- The timer and the outcomes after a list of calls; the `i`-th call reads `clock i`. -/
def history (clock : ℕ → ℝ) : List Call → Timer × List (Py Unit)
  | calls => calls.zipIdx.foldl
      (fun s c => let r := s.1.call (clock c.2) c.1; (r.1, s.2 ++ [r.2])) (new, [])

end Timer

end

end LRVB
