/- Prints, for every theorem named in MANIFEST.json, the axioms it depends on and the declarations
of this development that it uses, directly or not, one JSON line each.
Run in /verif/lean after a build:  lake env lean --stdin < ../tools/deps.txt -/
import Lean
import Verif
open Lean

partial def closure (env : Environment) : List Name → NameSet → NameSet
  | [], seen => seen
  | n :: rest, seen =>
    if seen.contains n then closure env rest seen
    else match env.find? n with
      | none => closure env rest seen
      | some ci =>
        let seen := seen.insert n
        if n.getRoot == `Verif || ci.isAxiom || true then
          let used := ci.type.getUsedConstants.toList ++
            (match ci.value? (allowOpaque := true) with | some v => v.getUsedConstants.toList | none => [])
          let used := used.filter (fun m => m.getRoot == `Verif || m.getRoot == `_private)
          closure env (used ++ rest) seen
        else closure env rest seen

run_cmd do
  let env ← getEnv
  let txt ← IO.FS.readFile "../MANIFEST.json"
  let .ok j := Json.parse txt | throwError "bad manifest"
  let .ok cs := j.getObjValAs? (Array Json) "claims" | throwError "no claims"
  for c in cs do
    let .ok p := c.getObjValAs? String "property" | throwError "no property"
    let .ok ts := c.getObjValAs? (Array String) "theorems" | throwError "no theorems"
    for t in ts do
      let n := t.toName
      let ax ← collectAxioms n
      let ds := (closure env [n] {}).toList
      IO.println (Json.mkObj [("property", p), ("theorem", t),
        ("axioms", toJson (ax.map toString)), ("uses", toJson (ds.map toString))]).compress
