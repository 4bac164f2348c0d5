import Lean
import Verif
open Lean Elab Command
/- Prints, for every constant of the library, the constants of the library it uses. -/
run_cmd do
  let env ← getEnv
  let mut out := ""
  for (n, ci) in env.constants.map₁.toList do
    if (`Amt).isPrefixOf n || (`Spec).isPrefixOf n then
      let us := ci.type.getUsedConstants ++ (match ci.value? (allowOpaque := true) with | some v => v.getUsedConstants | none => #[])
      let us := us.filter (fun u => ((`Amt).isPrefixOf u || (`Spec).isPrefixOf u) && u != n)
      out := out ++ s!"{n}\t{" ".intercalate (us.toList.map toString)}\n"
  IO.FS.writeFile "/tmp/deps.txt" out
