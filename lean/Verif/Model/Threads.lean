import Verif.Model.OptUtils
import Verif.Spec.Interrupt

/-!
# Threads

`Objective` and the parameters have no locks.  This file models several threads that call `fun_free` or
`fun_vector` of the same objective: every call is a sequence of atomic steps on the shared parameters and the
shared logger, and a schedule interleaves the steps arbitrarily.

Assigning or reading an attribute and appending to a list are single steps (this is what CPython's global lock
guarantees).  `set_free` of a single parameter is one step: what it computes before it assigns depends only on
its argument and on attributes that never change.  Dictionaries are not changed by these calls except for the
values of the parameters in them, so the shared state is the list of these parameters, in the order of
the vector.
-/

namespace LRVB

open Classical

noncomputable section

/-- What all threads see of an objective: the parameters in `par` and the logger. -/
structure Shared where
  leaves : List Leaf
  logger : Logger Arr

namespace Shared

/-- The outcome of `set_free(x)` or `set_vector(x)` of the `i`-th parameter. -/
def compute (s : Shared) (free : Bool) (i : ℕ) (x : List ℝ) : Py Leaf :=
  match s.leaves[i]? with
  | none => .error .keyError
  | some l => if free then l.setFree x else l.setVector x

/-- The state after `set_free(x)` or `set_vector(x)` of the `i`-th parameter: `Parameters.py:326-328`, `340-342`, and the same
in the other classes. -/
def assign (s : Shared) (free : Bool) (i : ℕ) (x : List ℝ) : Shared :=
  match s.compute free i x with
  | .error _ => s
  | .ok l => { s with leaves := s.leaves.set i l }

end Shared

/-- A step of `set_free` or `set_vector` of a dictionary: a call for the `i`-th of all parameters in it, or the exception of
a size check. -/
inductive SetStep where
  | call (i : ℕ) (x : List ℝ)
  | raise (e : PyErr)

mutual
/-- The steps of `set_free(x)` or `set_vector(x)`, `i` parameters come before: `ParameterDictionary.py:55-63`, `88-96`. -/
def Param.setSteps (free : Bool) : Param → List ℝ → ℕ → List SetStep
  | .leaf _, x, i => [.call i x]
  | .dict h es, x, i =>
    if x.length ≠ (if free then h.fs else h.vs) then [.raise .valueError] else Entries.setSteps free es x 0 i
/-- The loop over the entries. -/
def Entries.setSteps (free : Bool) : Entries → List ℝ → ℕ → ℕ → List SetStep
  | .nil, _, _, _ => []
  | .cons _ p rest, x, off, i =>
    let size := if free then p.freeSize else p.vecSize
    p.setSteps free (Leaf.slice x off size) i ++ Entries.setSteps free rest x (off + size) (i + p.leaves.length)
end

/-- A user function: it reads parameters, one at a time, and then returns or raises. -/
inductive Reader where
  | ret (r : Py Arr)
  | read (i : ℕ) (k : Leaf → Reader)

/-- The outcome of the function when nothing changes in the meantime. -/
def Reader.eval (ls : List Leaf) : Reader → Py Arr
  | .ret r => r
  | .read i k => match ls[i]? with
    | none => .error .keyError
    | some l => (k l).eval ls

/-- The rest of a call: it has returned or raised, or it is about to make the step `f`; how it goes on depends on what
it has seen in this step. -/
inductive Thread where
  | ret (r : Py Arr)
  | step (f : Shared → Shared) (k : Shared → Thread)

namespace Thread

/-- Make the steps, then go on with `k`. -/
def sets (free : Bool) : List SetStep → Thread → Thread
  | [], k => k
  | .raise e :: _, _ => .ret (.error e)
  | .call i x :: ms, k => .step (fun s => s.assign free i x) fun s =>
    match s.compute free i x with
    | .error e => .ret (.error e)
    | .ok _ => sets free ms k

/-- Call the user function, then go on with `k`. -/
def user : Reader → (Arr → Thread) → Thread
  | .ret (.error e), _ => .ret (.error e)
  | .ret (.ok v), k => k v
  | .read i r, k => .step id fun s =>
    match s.leaves[i]? with
    | none => .ret (.error .keyError)
    | some l => user (r l) k

/-- A step that changes the logger. -/
def logStep (f : Logger Arr → Logger Arr) (k : Thread) : Thread :=
  .step (fun s => { s with logger := f s.logger }) fun _ => k

/-- A step that looks at the logger. -/
def logRead (k : Logger Arr → Thread) : Thread := .step id fun s => k s.logger

/-- The end of `log`, from line 80 on, and `return val`: `SparseObjectives.py:80-87,125`.  `self.iter += 1` reads the attribute
and then assigns it. -/
def logEnd (value : Arr) (x : List ℝ) : Thread :=
  logStep (fun l => { l with lastX := some x }) <|
  logStep (fun l => { l with lastValue := some value }) <|
  logRead fun l =>
    if l.printEvery = 0 then .ret (.error .zeroDivision)
    else
      let count := logRead fun l => logStep (fun l' => { l' with iter := l.iter + 1 }) (.ret (.ok value))
      if l.iter % l.printEvery = 0 then logStep (fun l => { l with reports := l.reports ++ [l.iter] }) count else count

/-- `log(value, x)`, then `return val`: `SparseObjectives.py:67-87,125`. -/
def log (value : Arr) (x : List ℝ) : Thread :=
  logStep (fun l => { l with value := some value }) <|
  logStep (fun l => { l with x := some x }) <|
  logStep (fun l => { l with xArray := l.xArray ++ [x] }) <|
  logStep (fun l => { l with valArray := l.valArray ++ [value] }) <|
  logRead fun l =>
    if l.lastX = none then logEnd value x
    else logRead fun l1 => logRead fun l2 =>
      match l1.x, l2.lastX with
      | some a, some b => if Logger.diffOk a b then logEnd value x else .ret (.error .valueError)
      | _, _ => .ret (.error .typeError)

/-- `fun_free(x, verbose)` (`free = true`) or `fun_vector(x)` (`free = false`, never verbose) of an objective with parameter `par`
and user function `fn`: `SparseObjectives.py:120-129`. -/
def evaluate (par : Param) (fn : Reader) (free : Bool) (x : List ℝ) (verbose : Bool) : Thread :=
  sets free (par.setSteps free x 0) <| user fn fun v => if verbose then log v x else .ret (.ok v)

/-- One step. -/
def next (s : Shared) : Thread → Shared × Thread
  | .ret r => (s, .ret r)
  | .step f k => (f s, k s)

/-- The whole call, when nothing else happens. -/
def alone : Thread → Shared → Shared × Py Arr
  | .ret r, s => (s, r)
  | .step f k, s => (k s).alone (f s)

end Thread

/-- The threads and what they share. -/
structure Threads where
  shared : Shared
  threads : List Thread

namespace Threads

/-- The `i`-th thread makes a step. -/
def step (c : Threads) (i : ℕ) : Threads :=
  match c.threads[i]? with
  | none => c
  | some t => ⟨(t.next c.shared).1, c.threads.set i (t.next c.shared).2⟩

/-- The threads after a schedule: the list of the threads that make the next step. -/
def run (c : Threads) (schedule : List ℕ) : Threads := schedule.foldl step c

end Threads

end

end LRVB
