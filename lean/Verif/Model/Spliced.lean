import Verif.Model.Flavor

/-!
# The tokens behind `$bindings` and `$hooq_meta`

The rest of the model keeps what these two variables expand to as one token
(`TT.bindingsHole`, `TT.metaHole`).  Here are the tokens that the code splices.
-/

namespace Hooq

/-- The pair of a key and a payload, `get_bindings_token_stream`,
/repo/hooq-macros/src/impls/method/render/mod.rs:187-204.  `::std::rc::Rc<dyn
::std::any::Any>` is spelt token by token as everything else. -/
def pairTokens (p : String × Value) : TT :=
  tkParen (tkAbs ["std", "string", "ToString", "to_string"] ++ [tkParen [tkStr p.1], tkP ',', tkBrace (
    tkLet "expr" (tkAbs ["std", "string", "ToString", "to_string"] ++ [tkParen [tkStr p.2.text]]) ++
    [tkId "let", tkId "value", tkP ':'] ++ tkAbs ["std", "rc", "Rc"] ++ [tkP '<', tkId "dyn"] ++
    tkAbs ["std", "any", "Any"] ++ [tkP '>', tkP '='] ++ tkAbs ["std", "rc", "Rc", "new"] ++
    [tkParen [.valueHole p.2 .callSite], tkP ';'] ++
    tkAbs ["hooq", "BindingPayload"] ++ [tkBrace [tkId "expr", tkP ',', tkId "value", tkP ',']])])

/-- `#(#tuples),*`, /repo/hooq-macros/src/impls/method/render/mod.rs:208. -/
def pairsTokens : List (String × Value) → List TT
  | [] => []
  | [p] => [pairTokens p]
  | p :: q :: l => pairTokens p :: tkP ',' :: pairsTokens (q :: l)

/-- What `$bindings` expands to, /repo/hooq-macros/src/impls/method/render/mod.rs:206-210. -/
def bindingsTokens (l : List (String × Value)) : List TT :=
  tkAbs ["std", "collections", "HashMap", "from"] ++ [tkParen [.group .bracket (pairsTokens l) .callSite]]

/-- What `$hooq_meta` expands to, /repo/hooq-macros/src/impls/method/render/mod.rs:306-316.
`src` is the text of the source, which `MetaRec` leaves out. -/
def metaTokens (src : String) (m : MetaRec) : List TT :=
  tkAbs ["hooq", "HooqMeta"] ++ [tkBrace (
    [tkId "line", tkP ':', .lit (.usize m.line) .callSite, tkP ',',
     tkId "column", tkP ':', .lit (.usize m.col) .callSite, tkP ',',
     tkId "path", tkP ':', tkStr m.path, tkP ',', tkId "file", tkP ':', tkStr m.file, tkP ',',
     tkId "source_str", tkP ':', tkStr src, tkP ',', tkId "count", tkP ':', tkStr m.count, tkP ',',
     tkId "bindings", tkP ':'] ++ bindingsTokens m.bindings ++ [tkP ','])]

end Hooq
