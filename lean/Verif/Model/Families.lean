import Verif.Model.Dict
import Verif.Model.ExpFam

/-!
# Parameters of distributions

`NormalParams.py`, `GammaParams.py`, `WishartParams.py`, `DirichletParams.py`.  Every class is a
`ModelParamsDict` with named entries and methods that read them.
-/

namespace LRVB

open Classical Flt

noncomputable section

/-- `self[key].get()` for an entry that is not a dictionary (`ParameterDictionary.py:48-49`). -/
def Param.item (p : Param) (key : String) : Py Arr := do
  match ← p.viewGet key with
  | .arr v => .ok v
  | .view _ => .error .typeError

/-- A `ModelParamsDict` subclass with `self.__shape` (`self.__size`, as a list of length one). -/
structure Shaped where
  par : Param
  /-- `UVNParamVector.size()`, `UVNParamArray.shape()`, `UVNMomentParamArray.shape()`:
  `NormalParams.py:75-76, 103-104, 131-132` -/
  shape : List ℕ

namespace Families

open Arr ExpFam

/-! ### `NormalParams.py` -/

/-- `MVNParam.__init__`: `NormalParams.py:7-11`. -/
def mkMVN (name : String) (dim : ℕ) (minInfo : ℝ) : Py Param := do
  let m ← mkVector "mean" dim ninf pinf none
  let i ← mkPosDef "info" dim minInfo none
  .ok (((Param.emptyDict name).push (.leaf m)).push (.leaf i))

/-- `MVNParam.e`: `NormalParams.py:13-14`. -/
def mvnE (p : Param) : Py Arr := p.item "mean"

/-- `MVNParam.cov`: `NormalParams.py:15-16`. -/
def mvnCov (p : Param) : Py Arr := do (← p.item "info").inv

/-- `np.outer(a, b)`. -/
def outer (a b : Arr) : Arr := ofFn2 a.size b.size fun i j => a.data.getD i 0 * b.data.getD j 0

/-- `MVNParam.e_outer`: `NormalParams.py:17-20`. -/
def mvnEOuter (p : Param) : Py Arr := do
  let mean ← p.item "mean"
  let e ← (outer mean mean).add (← mvnCov p)
  let s ← e.add e.transpose
  .ok (s.map (0.5 * ·))

/-- `MVNParam.entropy`: `NormalParams.py:22-23`. -/
def mvnEntropy (p : Param) : Py ℝ := do multivariateNormalEntropy (← p.item "info")

/-- `UVNParam.__init__`: `NormalParams.py:27-30`. -/
def mkUVN (name : String) (minInfo : ℝ) : Py Param := do
  let m ← mkScalar "mean" ninf pinf none
  let i ← mkScalar "info" (fin minInfo) pinf none
  .ok (((Param.emptyDict name).push (.leaf m)).push (.leaf i))

/-- `UVNParamVector.__init__`: `NormalParams.py:52-56`. -/
def mkUVNVector (name : String) (length : ℕ) (minInfo : ℝ) : Py Shaped := do
  let m ← mkVector "mean" length ninf pinf none
  let i ← mkVector "info" length (fin minInfo) pinf none
  .ok ⟨((Param.emptyDict name).push (.leaf m)).push (.leaf i), [length]⟩

/-- `UVNParamArray.__init__`: `NormalParams.py:80-84`. -/
def mkUVNArray (name : String) (shape : List ℕ) (minInfo : ℝ) : Py Shaped := do
  let m ← mkArray "mean" shape ninf pinf none
  let i ← mkArray "info" shape (fin minInfo) pinf none
  .ok ⟨((Param.emptyDict name).push (.leaf m)).push (.leaf i), shape⟩

/-- `e` of `UVNParam`, `UVNParamVector`, `UVNParamArray`: `NormalParams.py:32,58,86`. -/
def uvnE (p : Param) : Py Arr := p.item "mean"

/-- `e_outer` of the three classes: `NormalParams.py:34,60,88`. -/
def uvnEOuter (p : Param) : Py Arr := do
  let a := (← p.item "mean").map (· ^ 2)
  a.add (← (scalar 1).div (← p.item "info"))

/-- `var` of the three classes: `NormalParams.py:36,62,90`. -/
def uvnVar (p : Param) : Py Arr := do (scalar 1).div (← p.item "info")

/-- `e_exp` of the three classes: `NormalParams.py:38,64,92`. -/
def uvnEExp (p : Param) : Py Arr := do
  getELognormal (← p.item "mean") (← (scalar 1).div (← p.item "info"))

/-- `var_exp` of the three classes: `NormalParams.py:41,67,95`. -/
def uvnVarExp (p : Param) : Py Arr := do
  getVarLognormal (← p.item "mean") (← (scalar 1).div (← p.item "info"))

/-- `e2_exp` of the three classes: `NormalParams.py:44,70,98`. -/
def uvnE2Exp (p : Param) : Py Arr := do
  let a := (← uvnEExp p).map (· ^ 2)
  a.add (← uvnVarExp p)

/-- `entropy` of the three classes: `NormalParams.py:46,72,100` (`np.sum` of a number is the
number). -/
def uvnEntropy (p : Param) : Py ℝ := do univariateNormalEntropy (← p.item "info")

/-- `UVNMomentParamArray.__init__`: `NormalParams.py:109-113`. -/
def mkUVNMomentArray (name : String) (shape : List ℕ) (minInfo : ℝ) : Py Shaped := do
  let m ← mkArray "e" shape ninf pinf none
  let i ← mkArray "e2" shape (fin minInfo) pinf none
  .ok ⟨((Param.emptyDict name).push (.leaf m)).push (.leaf i), shape⟩

/-- `UVNMomentParamArray.e`: `NormalParams.py:115`. -/
def momE (p : Param) : Py Arr := p.item "e"

/-- `UVNMomentParamArray.e_outer`: `NormalParams.py:117`. -/
def momEOuter (p : Param) : Py Arr := p.item "e2"

/-- `UVNMomentParamArray.var`: `NormalParams.py:119`. -/
def momVar (p : Param) : Py Arr := do
  (← p.item "e2").minus ((← p.item "e").map (· ^ 2))

/-- `UVNMomentParamArray.e_exp`: `NormalParams.py:121`. -/
def momEExp (p : Param) : Py Arr := do getELognormal (← p.item "e") (← momVar p)

/-- `UVNMomentParamArray.var_exp`: `NormalParams.py:123` (calls `get_e_lognormal`). -/
def momVarExp (p : Param) : Py Arr := do getELognormal (← p.item "e") (← momVar p)

/-- `UVNMomentParamArray.e2_exp`: `NormalParams.py:125`. -/
def momE2Exp (p : Param) : Py Arr := do
  let a := (← momEExp p).map (· ^ 2)
  a.add (← momVarExp p)

/-- `UVNMomentParamArray.entropy`: `NormalParams.py:127-129`. -/
def momEntropy (p : Param) : Py ℝ := do
  univariateNormalEntropy (← (scalar 1).div (← momVar p))

/-- Two calls `self[k].set(v)`, the second one only when the first one did not raise. -/
def setTwo (s : Shaped) (k1 : String) (v1 : Arr) (k2 : String) (v2 : Py Arr) :
    Shaped × Option PyErr :=
  let r1 := s.par.viewSet k1 v1
  match r1.2 with
  | some e => (⟨r1.1, s.shape⟩, some e)
  | none => match v2 with
    | .error e => (⟨r1.1, s.shape⟩, some e)
    | .ok v => let r2 := r1.1.viewSet k2 v; (⟨r2.1, s.shape⟩, r2.2)

/-- `set_from_uvn_param_array(uvn_par)`: `NormalParams.py:134-137`. -/
def setFromUvn (s u : Shaped) : Shaped × Option PyErr :=
  if u.shape ≠ s.shape then (s, some .assertionError)
  else match uvnE u.par with
    | .error e => (s, some e)
    | .ok v => setTwo s "e" v "e2" (uvnEOuter u.par)

/-- `set_from_constant(scalar_array_par)`: `NormalParams.py:140-143`; the argument is an
`ArrayParam`. -/
def setFromConstant (s : Shaped) (l : Leaf) : Shaped × Option PyErr :=
  match l.kind with
  | .array sh _ _ =>
    if sh ≠ s.shape then (s, some .assertionError)
    else setTwo s "e" l.get "e2" (.ok (l.get.map (· ^ 2)))
  | _ => (s, some .unmodelled)

/-- `MVNArray.__init__`: `NormalParams.py:151-156`. -/
def mkMVNArray (name : String) (shape : List ℕ) (minInfo : ℝ) : Py Shaped := do
  let m ← mkArray "mean" shape ninf pinf none
  match shape with
  | [] => .error .indexError
  | n :: _ => do
    let i ← mkVector "info" n (fin minInfo) pinf none
    .ok ⟨((Param.emptyDict name).push (.leaf m)).push (.leaf i), shape⟩

/-- `MVNArray.e`: `NormalParams.py:158-159`. -/
def mvnArrayE (p : Param) : Py Arr := p.item "mean"

/-- `MVNArray.e2`: `NormalParams.py:160-162`. -/
def mvnArrayE2 (p : Param) : Py Arr := do
  let var ← (scalar 1).div (← p.item "info")
  ((← p.item "mean").map (· ^ 2)).add ⟨var.shape ++ [1], var.data⟩

/-! ### `GammaParams.py` -/

/-- `GammaParam.__init__`: `GammaParams.py:5-8`. -/
def mkGamma (name : String) (minShape minRate : ℝ) : Py Param := do
  let a ← mkScalar "shape" (fin minShape) pinf none
  let b ← mkScalar "rate" (fin minRate) pinf none
  .ok (((Param.emptyDict name).push (.leaf a)).push (.leaf b))

/-- `GammaParam.e`: `GammaParams.py:9-10`. -/
def gammaE (p : Param) : Py Arr := do (← p.item "shape").div (← p.item "rate")

/-- `GammaParam.e_log`: `GammaParams.py:11-13`. -/
def gammaELog (p : Param) : Py Arr := do getELogGamma (← p.item "shape") (← p.item "rate")

/-- `GammaParam.entropy`: `GammaParams.py:14-16`. -/
def gammaParEntropy (p : Param) : Py ℝ := do gammaEntropy (← p.item "shape") (← p.item "rate")

/-! ### `WishartParams.py` -/

/-- `WishartParam.__init__`: `WishartParams.py:7-15`.  `not min_df` holds for `None` and for `0`.
The size is not passed to `PosDefMatrixParam`, whose default is 2. -/
def mkWishart (name : String) (size : ℕ) (diagLb : ℝ) (minDf : Option ℝ) : Py Shaped := do
  let md : ℝ := match minDf with
    | none => (size : ℝ) - 1
    | some d => if d = 0 then (size : ℝ) - 1 else d
  if ¬ (size : ℝ) - 1 ≤ md then .error .assertionError
  else
    let df ← mkScalar "df" (fin md) pinf none
    let v ← mkPosDef "v" 2 diagLb none
    .ok ⟨((Param.emptyDict name).push (.leaf df)).push (.leaf v), [size]⟩

/-- `WishartParam.e`: `WishartParams.py:17-18`. -/
def wishartE (p : Param) : Py Arr := do (← p.item "df").mul (← p.item "v")

/-- `WishartParam.e_inv`: `WishartParams.py:22-23`. -/
def wishartEInv (p : Param) : Py Arr := do (← p.item "df").mul (← (← p.item "v").inv)

/-- A held number: an array with one entry. -/
def number (a : Arr) : Py ℝ :=
  match a.data with
  | [x] => .ok x
  | _ => .error .unmodelled

/-- `WishartParam.e_log_det`: `WishartParams.py:19-21`.  The held `df` is a number (numpy would
return an array with one entry when it has an axis). -/
def wishartELogDet (p : Param) : Py ℝ := do eLogDetWishart (← number (← p.item "df")) (← p.item "v")

/-- `WishartParam.entropy`: `WishartParams.py:25-27`. -/
def wishartParEntropy (p : Param) : Py ℝ := do
  wishartEntropy (← number (← p.item "df")) (← p.item "v")

/-- `WishartParam.e_log_lkj_inv_prior`: `WishartParams.py:33-35`. -/
def wishartLkj (p : Param) (lkjParam : ℝ) : Py ℝ := do
  expectedLkjPrior lkjParam (← number (← p.item "df")) (← p.item "v")

/-! ### `DirichletParams.py` -/

/-- `DirichletParamArray.__init__`: `DirichletParams.py:11-16`. -/
def mkDirichlet (name : String) (shape : List ℕ) (minAlpha : ℝ) (val : Option Arr) : Py Shaped :=
  if ¬ 0 ≤ minAlpha then .error .assertionError
  else do
    let a ← mkArray "alpha" shape (fin minAlpha) pinf val
    .ok ⟨(Param.emptyDict name).push (.leaf a), shape⟩

/-- `DirichletParamArray.e`: `DirichletParams.py:18-19`. -/
def dirichletE (p : Param) : Py Arr := do getEDirichlet (← p.item "alpha")

/-- `DirichletParamArray.e_log`: `DirichletParams.py:21-22`. -/
def dirichletELog (p : Param) : Py Arr := do getELogDirichlet (← p.item "alpha")

/-- `DirichletParamArray.entropy`: `DirichletParams.py:24-25`. -/
def dirichletParEntropy (p : Param) : Py Arr := do dirichletEntropy (← p.item "alpha")

end Families

end

end LRVB
