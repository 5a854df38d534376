import Verif
import Lean
open Lean
/- Prints, for every theorem `Wagyu.Cnn_*`, the constants of this project its statement and proof use (transitively). -/
partial def go (env : Environment) (mods : Array Name) (n : Name) (seen : NameSet) : NameSet := Id.run do
  if seen.contains n then return seen
  match env.getModuleIdxFor? n with
  | none => return seen
  | some i =>
    if !(`Verif).isPrefixOf mods[i]! then return seen
    let mut seen := seen.insert n
    match env.find? n with
    | none => return seen
    | some c =>
      let mut used := c.type.getUsedConstants
      match c.value? (allowOpaque := true) with
      | some v => used := used ++ v.getUsedConstants
      | none => pure ()
      for u in used do seen := go env mods u seen
      return seen
run_cmd do
  let env ← getEnv
  let mods := env.allImportedModuleNames
  let mut out := #[]
  for (n, _) in env.constants.map₁.toList do
    match n with
    | .str (.str .anonymous "Wagyu") s =>
      if s.length > 4 && s.startsWith "C" && (s.toList.drop 1 |>.take 2 |>.all Char.isDigit) && (s.toList.getD 3 ' ') == '_' then
        let d := go env mods n {}
        out := out.push s!"{n} {" ".intercalate (d.toList.map (·.toString))}"
    | _ => pure ()
  IO.FS.writeFile "/tmp/deps/deps.txt" ("\n".intercalate out.toList)
