import Verif.Model.Round
import Mathlib.Analysis.Real.Pi.Bounds

/-!
# The logistic terms in floating point

`get_e_logistic_term`, `get_e_logistic_term_guass_hermite` (`Modeling.py`) and `get_e_log_logitnormal`
(`ExponentialFamilies.py`) again, now with the result of every operation rounded.  The arrays are
one-dimensional.
-/

namespace LRVB

open Classical Flt

noncomputable section

namespace FloatOps

variable (o : FloatOps)

/-- `np.sqrt(a)`: correctly rounded. -/
def sqrt : Flt → Flt
  | fin a => if 0 ≤ a then o.rnd (Real.sqrt a) else nan
  | pinf => pinf
  | _ => nan

/-- `np.pi` -/
def pi : Flt := o.rnd Real.pi

/-- `np.maximum(a, b)`: NaN when one of them is. -/
def maximum (a b : Flt) : Flt :=
  match a, b with
  | nan, _ => nan
  | _, nan => nan
  | a, b => if a ≤ b then b else a

/-- A comparison, as a factor of a product of arrays. -/
def indicator (p : Prop) : Flt := if p then fin 1 else fin 0

/-- The sample points of `get_e_fun_normal`: `ExponentialFamilies.py:137-139`. -/
def samplePoint (mean info loc : Flt) : Flt :=
  o.add (o.div (o.mul (o.mul (o.sqrt (fin 2)) loc) (fin 1)) (o.sqrt info)) mean

/-- `get_e_fun_normal(means, infos, gh_loc, gh_weights, fun)`, one mean and information, with the locations and
weights in pairs: `ExponentialFamilies.py:126-143`. -/
def getEFunNormal (mean info : Flt) (nodes : List (Flt × Flt)) (f : Flt → Flt) : Flt :=
  o.sum (nodes.map fun p =>
    o.mul (o.mul (o.div (fin 1) (o.sqrt o.pi)) p.2) (f (o.samplePoint mean info p.1)))

/-- `log_v` of `get_e_log_logitnormal`: `ExponentialFamilies.py:156-157`. -/
def logV (x : Flt) : Flt :=
  o.add (o.mul (maximum (-o.log (o.add (fin 1) (o.exp (-x)))) (fin (-10 ^ 16))) (indicator (fin (-100) < x)))
    (o.mul x (indicator (x ≤ fin (-100))))

/-- `get_e_log_logitnormal(...)`, one mean and information: `ExponentialFamilies.py:152-168`. -/
def getELogLogitnormal (mean info : Flt) (nodes : List (Flt × Flt)) : Flt × Flt :=
  let e := o.getEFunNormal mean info nodes o.logV
  (e, o.add (-mean) e)

/-- `np.log1p(a)`, where `log1pR` is its value at a finite number above `-1`. -/
def log1p (log1pR : ℝ → Flt) : Flt → Flt
  | fin a => if -1 < a then log1pR a else if a = -1 then ninf else nan
  | pinf => pinf
  | _ => nan

/-- `get_e_logistic_term(y, z_mean, z_sd, std_draws)`, with `y`, `z_mean` and `z_sd` in triples:
`Modeling.py:16-32`. -/
def getELogisticTerm (log1pR : ℝ → Flt) (obs : List (Flt × Flt × Flt)) (stdDraws : List Flt) : Flt :=
  let zDraws := obs.flatMap fun a => stdDraws.map fun d => o.add (o.mul a.2.2 d) a.2.1
  let logitTerm := o.div (o.sum (zDraws.map fun z => log1p log1pR (o.exp z))) (fin stdDraws.length)
  o.sub (o.sum (obs.map fun a => o.mul a.1 a.2.1)) logitTerm

/-- `get_e_logistic_term_guass_hermite(z_mean, z_sd, gh_x, gh_w)`, with `z_mean` and `z_sd`, and `gh_x` and `gh_w`,
in pairs: `Modeling.py:35-50`. -/
def getELogisticTermGH (log1pR : ℝ → Flt) (obs nodes : List (Flt × Flt)) : Flt :=
  o.sum (obs.flatMap fun a => nodes.map fun p =>
    let z := o.add (o.mul (o.mul (o.sqrt (fin 2)) a.2) p.1) a.1
    o.div (o.mul p.2 (log1p log1pR (o.exp z))) (o.sqrt o.pi))

end FloatOps

end

end LRVB
