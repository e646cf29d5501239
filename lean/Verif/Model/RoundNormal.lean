import Verif.Model.RoundLogistic

/-!
# Normal distributions and discrete distributions in floating point

`get_e_lognormal`, `get_var_lognormal`, `univariate_normal_entropy` and `multinoulli_entropy`
(`ExponentialFamilies.py`) and the moments of `NormalParams.py` again, now with the result of every operation
rounded.  The functions act on the elements of arrays one by one; arrays that are summed are one-dimensional.
-/

namespace LRVB

open Classical Flt

noncomputable section

namespace FloatOps

variable (o : FloatOps)

/-- `a ** 2`: numpy computes `a * a`. -/
def square (a : Flt) : Flt := o.mul a a

/-- `get_e_lognormal(mu, sigma_sq)`, one element: `ExponentialFamilies.py:104-105`. -/
def getELognormal (mu sigmaSq : Flt) : Flt := o.exp (o.add mu (o.mul (fin (1 / 2)) sigmaSq))

/-- `get_var_lognormal(mu, sigma_sq)`, one element: `ExponentialFamilies.py:107-109`. -/
def getVarLognormal (mu sigmaSq : Flt) : Flt :=
  o.mul (o.sub (o.exp sigmaSq) (fin 1)) (o.square (o.getELognormal mu sigmaSq))

/-- `var` of `UVNParam`, `UVNParamVector` and `UVNParamArray`, one element: `NormalParams.py:36-37,62-63,90-91`. -/
def uvnVar (info : Flt) : Flt := o.div (fin 1) info

/-- `e_outer` of the three classes, one element: `NormalParams.py:34-35,60-61,88-89`. -/
def uvnEOuter (mean info : Flt) : Flt := o.add (o.square mean) (o.div (fin 1) info)

/-- `var` of `UVNMomentParamArray`, one element: `NormalParams.py:119-120`. -/
def momVar (e e2 : Flt) : Flt := o.sub e2 (o.square e)

/-- `e_exp` of `UVNMomentParamArray`, one element: `NormalParams.py:121-122`. -/
def momEExp (e e2 : Flt) : Flt := o.getELognormal e (o.momVar e e2)

/-- `univariate_normal_entropy(info_obs)`: `ExponentialFamilies.py:23-25`. -/
def univariateNormalEntropy (infos : List Flt) : Flt :=
  o.mul (fin (1 / 2)) (o.sum (infos.map fun i =>
    o.add (o.add (o.mul (fin (-1)) (o.log i)) (fin 1)) (o.log (o.mul (fin 2) o.pi))))

/-- `entropy` of `UVNMomentParamArray`, with `e` and `e2` in pairs: `NormalParams.py:127-129`. -/
def momEntropy (moments : List (Flt × Flt)) : Flt :=
  o.univariateNormalEntropy (moments.map fun p => o.div (fin 1) (o.momVar p.1 p.2))

/-- `set_from_uvn_param_array(uvn_par)`, the values of `e` and `e2`, for means and informations in pairs:
`NormalParams.py:134-137`. -/
def momFromUvn (uvns : List (Flt × Flt)) : List (Flt × Flt) := uvns.map fun p => (p.1, o.uvnEOuter p.1 p.2)

/-- `set_from_constant(scalar_array_par)`, the values of `e` and `e2`: `NormalParams.py:140-143`. -/
def momFromConstant (values : List Flt) : List (Flt × Flt) := values.map fun v => (v, o.square v)

/-- `multinoulli_entropy(p, min_prob)`, one row: `ExponentialFamilies.py:20-21`. -/
def multinoulliEntropy (minProb : Flt) (p : List Flt) : Flt :=
  o.mul (fin (-1)) (o.sum (p.map fun a => o.mul a (o.log (o.add a minProb))))

end FloatOps

end

end LRVB
