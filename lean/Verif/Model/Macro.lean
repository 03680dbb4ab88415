import Verif.Model.LoadAdvanced

/-!
# Model of `cfg-regexp-macro`

`/repo/cfg-regexp-macro/src/lib.rs`. The tokens that the compiler passes to the macro are the input.
Of a span only the byte range is kept. Of the source text that the macro makes only that of an error
is modelled, by `errorSource`. The reason is put into it without escapes, so the compiler can fail to
read it (see `Spec/RustString.lean`); whether this panics at line 115 is not modelled.
-/

namespace Verif.Macro

open Advanced

/-- `proc_macro::Span` with its `byte_range`. `/repo/cfg-regexp-macro/src/lib.rs:11,65-68`. -/
structure Span where
  start : Nat
  stop : Nat
  deriving DecidableEq, Repr

/-- `proc_macro::Delimiter`. `/repo/cfg-regexp-macro/src/lib.rs:11`. -/
inductive Delimiter where
  | parenthesis | brace | bracket | none
  deriving DecidableEq, Repr

/-- `proc_macro::TokenTree`. `/repo/cfg-regexp-macro/src/lib.rs:11`. Identifiers and literals have
the text that `to_string` gives. -/
inductive TokenTree where
  | group (delimiter : Delimiter) (stream : List TokenTree) (spanOpen spanClose : Span)
  | ident (text : Text) (span : Span)
  | punct (ch : Char) (span : Span)
  | literal (text : Text) (span : Span)

/-- `explicit_delimiters`. `/repo/cfg-regexp-macro/src/lib.rs:15-25`. -/
def explicitDelimiters : Delimiter → Option (Char × Char)
  | .parenthesis => some ('(', ')')
  | .brace => some ('{', '}')
  | .bracket => some ('[', ']')
  | .none => Option.none

/-- The elements of `out`. `/repo/cfg-regexp-macro/src/lib.rs:27`. -/
abbrev Flat := Text × Span × Bool

mutual

/-- The body of the loop of `flatten`. `/repo/cfg-regexp-macro/src/lib.rs:29-51`. -/
def flattenTree : TokenTree → List Flat → List Flat
  | .group delimiter stream spanOpen spanClose, out =>
    let delimiters := explicitDelimiters delimiter
    let out := match delimiters with
      | some (opening, _) => out ++ [([opening], spanOpen, true)]
      | none => out
    let out := flatten stream out
    match delimiters with
    | some (_, closing) => out ++ [([closing], spanClose, true)]
    | none => out
  | .ident text span, out => out ++ [(text, span, true)]
  | .punct ch span, out => out ++ [([ch], span, !(ch == ':'))]
  | .literal text span, out => out ++ [(text, span, true)]

/-- `flatten`. `/repo/cfg-regexp-macro/src/lib.rs:27-53`. -/
def flatten : List TokenTree → List Flat → List Flat
  | [], out => out
  | tt :: stream, out => flatten stream (flattenTree tt out)

end

/-- The loop that makes the text and the list of spans. `/repo/cfg-regexp-macro/src/lib.rs:62-73`. -/
def assemble : List Flat → Text → List Span → Text × List Span
  | [], code, spans => (code, spans)
  | (s, span, append) :: input, code, spans =>
    let code := code ++ s
    let isLoneColon := s == [':'] && some span.stop != input.head?.map (·.2.1.start)
    if append || isLoneColon then assemble input (code ++ ['\n']) (spans ++ [span])
    else assemble input code spans

/-- What the macro makes: the source text of a parser, which is the same for all grammars
(`/repo/cfg-regexp-macro/src/process.rs:6-8`), or a call of `compile_error!` whose tokens have the
given span, if any. `/repo/cfg-regexp-macro/src/lib.rs:78-126`. -/
inductive Output where
  | parser
  | compileError (reason : String) (span : Option Span)
  deriving DecidableEq, Repr

/-- The source text for an error. `/repo/cfg-regexp-macro/src/lib.rs:113-115`. -/
def errorSource (reason : String) : Text :=
  "compile_error!(\"".toList ++ reason.toList ++ "\")".toList

/-- `cfg_regexp`. `/repo/cfg-regexp-macro/src/lib.rs:56-128`. -/
def cfgRegexp (R : Recognizer Terminal) (p : Profile) (parse : Text → Except String Hir)
    (stream : List TokenTree) : Res Output := do
  let (code, spans) := assemble (flatten stream []) [] []
  match ← load R p parse code with
  | .ok advancedGrammar => if advancedGrammar.sbs.isEmpty then .ok .parser else .panic
  | .error e =>
    if e.line ≠ 0 then do
      let span ← Res.index spans (e.line - 1)
      .ok (.compileError e.reason (some span))
    else .ok (.compileError e.reason none)

end Verif.Macro
