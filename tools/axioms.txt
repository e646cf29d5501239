import Verif
/-! Prints the axioms of every property theorem: run `lake env lean --stdin < ../tools/axioms.txt` in `lean/`. -/
open Lean
run_meta do
  let mut out : Array String := #[]
  for (n, _) in (← getEnv).constants.map₁ do
    if n.getPrefix == `LRVB then
      let s := n.getString!
      if s.length > 4 && s.front == 'C' && (s.toList.getD 1 'x').isDigit && (s.toList.getD 2 'x').isDigit then
        let ax := (← collectAxioms n).map toString |>.qsort (· < ·)
        out := out.push s!"{s}: {", ".intercalate ax.toList}"
  for l in out.qsort (· < ·) do IO.println l
