import Verif.Model.LoadAdvanced

/-!
# Model of the messages of loading errors

`/repo/cfg-load/src/lib.rs:34-51`.
-/

namespace Verif

/-- The text of `{:?}` for an optional token. `/repo/cfg-load/src/lib.rs:45-46`. `dbg` is the derived
`Debug` of `Token` (`/repo/cfg-load/src/advanced.rs:288-308`), which is not modelled. -/
def debugOption (dbg : Advanced.Token → Text) : Option Advanced.Token → Text
  | none => "None".toList
  | some token => "Some(".toList ++ dbg token ++ [')']

/-- `Display for LoadError`. `/repo/cfg-load/src/lib.rs:34-51`. -/
def LoadError.display (dbg : Advanced.Token → Text) (e : LoadError) : Text :=
  "Parse error at line ".toList ++ (toString e.line).toList ++ " column ".toList ++
    (toString e.col).toList ++ ": reason: ".toList ++ e.reason.toList ++ " token: ".toList ++
    debugOption dbg e.token

end Verif
