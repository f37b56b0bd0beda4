{"id": "C01", "title": "`?` hook placement is exact", "statement": "After `#[hooq]` succeeds on an item, the operand of a `?` that the macro visits carries exactly one inserted method when the `?` is not covered by a skip attribute and `?` is enabled in the hook targets in force there, and carries none otherwise.", "quantifier": "every item, every position of a `?` inside it (any nesting depth, any mixture of expression forms), every flavor and every placement of inert attributes", "why_tests_cant": "The walk has about forty expression forms and arbitrary nesting; a test only fixes one tree shape and one attribute placement at a time.", "anchors": ["hooq-macros/src/impls/walker/mod.rs: walk_expr (Expr::Try)", "hooq-macros/src/impls/walker/hook_expr.rs: hook_expr", "hooq-macros/src/impls/inert_attr/context.rs: HookContext"]}
{"id": "C02", "title": "`return` hook placement is exact", "statement": "A `return e` is given exactly one inserted method when it is not skipped, `return` is enabled, and either the (already processed) `e` is a call whose callee path ends with one of the tail_expr_idents, or the enclosing fn/closure has a declared return type ending with one of the result_types and `e` is not a call ending with one of the ignore_tail_expr_idents. A bare `return` is never touched.", "quantifier": "every item, every `return` position, every configuration of idents/result types", "why_tests_cant": "The rule combines four settings with lexical scoping of functions and closures; tests sample a handful of combinations.", "anchors": ["hooq-macros/src/impls/walker/mod.rs: walk_expr (Expr::Return), target_call_check_bools", "hooq-macros/src/impls/inert_attr/context.rs: return_type_is_result, path_is_hook_call_like_err"]}
{"id": "C03", "title": "Tail expression hook placement is exact", "statement": "The trailing expression of a block is given one inserted method when it is not skipped, tail expressions are enabled, and either it is a call ending in a tail_expr_ident, or it is the tail of a fn/closure body whose declared return type ends in a result type and it is not a call ending in an ignore ident. The same rule holds for expression-bodied closures and match arms; expressions that are not in tail position never get a tail hook.", "quantifier": "every item, every block-like construct, every position in it, every configuration", "why_tests_cant": "Which constructs count as function tails, block tails or neither is spread over a dozen branches of the walker.", "anchors": ["hooq-macros/src/impls/walker/mod.rs: handle_tail_expr, walk_stmt, TailExprTargetKind"]}
{"id": "C04", "title": "Erasure: the macro only adds hooks and removes inert attributes", "statement": "Deleting every inserted hook (restoring a consumed `?`) from the output of a successful expansion gives back the input item with the `#[hooq::...]` attributes removed at the positions the walker visits; no statement, expression, token, order or nesting is otherwise changed.", "quantifier": "every item, flavor, attribute placement, and both settings of the consume-question feature", "why_tests_cant": "Structure preservation is a statement about all trees; snapshot tests compare single trees.", "anchors": ["hooq-macros/src/impls/walker/mod.rs: walk_item, walk_stmt, walk_expr", "hooq-macros/src/impls/method/render/mod.rs: render_expr_with_method"]}
{"id": "C05", "title": "`?` is kept unless the method ends in `!` with consume-question", "statement": "Without the consume-question feature every `?` of the input is still present in the output. With it, a `?` disappears exactly when it was hooked with a method written with a trailing `!`; `!` on a method used for `return`/tail targets changes nothing.", "quantifier": "every item, every `?` in it, every method in force, both feature settings", "why_tests_cant": "Depends on the method inherited at each position; silently losing a `?` is a control-flow change that a missing test case would hide.", "anchors": ["hooq-macros/src/impls/walker/mod.rs: walk_expr (Expr::Try)", "hooq-macros/src/impls/method/mod.rs: Method, split_tail_exclamation"]}
{"id": "C06", "title": "skip_all disables hooking in its whole subtree", "statement": "No target inside a node annotated `#[hooq::skip_all]` is hooked, at any depth.", "quantifier": "every item, every node carrying skip_all, every target below it, all other attributes on the way", "why_tests_cant": "Interaction with inner attributes at any depth cannot be enumerated by tests.", "anchors": ["hooq-macros/src/impls/inert_attr/context.rs: for_sub_scope_context, updated_by_inert_attr", "hooq-macros/src/impls/inert_attr/mod.rs: handle_inert_attrs"]}
{"id": "C07", "title": "skip covers exactly the same scope", "statement": "`#[hooq::skip]` suppresses exactly the targets reachable from the annotated node without entering a nested scope (block of fn/closure/if/else/loop/for/while/match arm/async/unsafe/const/try); targets inside nested scopes are hooked as if the attribute were absent.", "quantifier": "every item, every node carrying skip, every target below it", "why_tests_cant": "Each construct decides separately which children are a sub scope.", "anchors": ["hooq-macros/src/impls/inert_attr/context.rs: for_sub_scope_context", "hooq-macros/src/impls/walker/mod.rs: walk_expr"]}
{"id": "C08", "title": "Lexical scoping of settings", "statement": "The method, hook targets, tail/ignore idents, result types, hook_in_macros and each binding in force at a position are those set by the nearest enclosing annotated node (the node itself included), falling back to the flavor named on `#[hooq(...)]`; attributes on siblings, descendants or earlier nodes never leak.", "quantifier": "every item, every position, every placement of attributes and every setting separately", "why_tests_cant": "A leak shows only for particular combinations of siblings and nesting.", "anchors": ["hooq-macros/src/impls/inert_attr/context.rs: HookContext::updated_by_inert_attr, LocalContextField", "hooq-macros/src/impls/inert_attr/mod.rs: handle_inert_attrs"]}
{"id": "C09", "title": "hook_in_macros = false leaves macro bodies untouched", "statement": "Where hook_in_macros is false, or where a macro body does not parse as a comma/semicolon separated list of Rust code, the macro's tokens are returned unchanged and nothing inside is hooked, counted, or reported as an error.", "quantifier": "every macro invocation (item, statement, expression, impl and trait position), every body", "why_tests_cant": "Bodies are arbitrary token streams.", "anchors": ["hooq-macros/src/impls/walker/walk_macro.rs: walk_macro, handle_token_stream"]}
{"id": "C10", "title": "Macro bodies are processed like ordinary code", "statement": "Where hook_in_macros is true and the body parses as code, targets inside are hooked by the same rules and settings as outside, separators are kept, and all code in the body other than hooks and inert attributes is preserved.", "quantifier": "every parsed macro body, every nesting of macros", "why_tests_cant": "Bodies nest without bound and are parsed with a four-way fallback.", "anchors": ["hooq-macros/src/impls/walker/walk_macro.rs: handle_token_stream, Evaluable, EvaluableList"]}
{"id": "C11", "title": "$count numbers targets consecutively", "statement": "Within one `#[hooq]` expansion the k-th non-skipped target of a kind, in the order the walk completes them, gets the number k; numbers are never repeated or shared between kinds, skipped targets do not consume a number, and targets disabled by hook_targets do.", "quantifier": "every item, every sequence of targets of the three kinds", "why_tests_cant": "Numbering is a history property of the whole walk with shared mutable state.", "anchors": ["hooq-macros/src/impls/inert_attr/context.rs: Counter", "hooq-macros/src/impls/walker/hook_expr.rs: hook_expr", "hooq-macros/src/impls/method/render/mod.rs: get_count"]}
{"id": "C12", "title": "English ordinals", "statement": "The text of `$count` is the decimal number followed by the grammatically right suffix (1st, 2nd, 3rd, 4th, 11th, 12th, 13th, 21st, 111th, ...) and the target kind.", "quantifier": "every natural number and each of the three kinds", "why_tests_cant": "Unbounded domain with the 11-13 exception recurring every hundred.", "anchors": ["hooq-macros/src/impls/method/render/mod.rs: get_count"]}
{"id": "C13", "title": "Inert attributes are consumed, all others are kept", "statement": "On every node the walker visits, `#[hooq::...]` attributes are removed and all other attributes stay, in their original order; so the output contains no attribute that rustc would reject as unknown.", "quantifier": "every node of every item, every attribute list", "why_tests_cant": "The set of visited attribute positions is scattered over the walker; an unvisited position only shows up for that syntax.", "anchors": ["hooq-macros/src/impls/inert_attr/parse.rs: extract_hooq_info_from_attrs", "hooq-macros/src/impls/walker/mod.rs"]}
{"id": "C14", "title": "The empty flavor never changes code", "statement": "With `#[hooq(empty)]` and no attribute that overrides hook targets, flavor or method, the output equals the input minus inert attributes, whatever hooq.toml says, and expansion never fails because of a template.", "quantifier": "every item without overriding attributes, every hooq.toml", "why_tests_cant": "Must hold for every item and every configuration file.", "anchors": ["hooq-macros/src/impls/flavor/presets/: empty", "hooq-macros/src/impls/flavor/mod.rs: FlavorStore", "hooq-macros/src/impls/flavor/toml_load/apply.rs: update_flavors"]}
{"id": "C15", "title": "$source is the pre-hook code, $expr the post-hook code", "statement": "In an inserted hook `$source` is the target as written (with inert attributes of the node removed and no hooks inside), while `$expr` is the operand after inner targets were hooked.", "quantifier": "every target in every item, nested targets included", "why_tests_cant": "Only nested targets distinguish the two, to arbitrary depth.", "anchors": ["hooq-macros/src/impls/walker/mod.rs: walk_expr (Try, Return), handle_tail_expr", "hooq-macros/src/impls/method/render/mod.rs: meta_vars2token_stream"]}
{"id": "C16", "title": "$fn_name and $fn_sig describe the innermost function", "statement": "`$fn_name`/`$fn_sig` give the innermost enclosing fn (its name/signature) or closure (`__closure_in_F__` where F is the nearest enclosing fn, however many closures lie between), and `<unknown>` outside any function.", "quantifier": "every target, every nesting of fns, impls, traits, closures", "why_tests_cant": "Nesting depth is unbounded.", "anchors": ["hooq-macros/src/impls/utils/function_info.rs: ClosureInfo::new, FunctionInfo", "hooq-macros/src/impls/inert_attr/context.rs: update_fn_info"]}
{"id": "C17", "title": "Return type check uses the innermost fn or closure", "statement": "Whether a `return`/tail counts as Result-typed is decided by the declared return type of the innermost fn/closure/async block the value is returned from.", "quantifier": "every target, every nesting of fns, closures and async blocks", "why_tests_cant": "Nesting depth is unbounded and async blocks are a separate branch.", "anchors": ["hooq-macros/src/impls/inert_attr/context.rs: return_type_is_result", "hooq-macros/src/impls/utils/function_info.rs: return_type_is_result_inner", "hooq-macros/src/impls/walker/mod.rs: walk_expr (Expr::Async, Expr::Closure)"]}
{"id": "C18", "title": "Expansion fails only for stated reasons", "statement": "Expansion of an item reports an error exactly when a visited attribute is malformed, or a hook that is to be inserted has a template that cannot be expanded or re-parsed; an item without inert attributes under a well-formed method always expands.", "quantifier": "every item and configuration", "why_tests_cant": "Totality over all trees.", "anchors": ["hooq-macros/src/impls/walker/mod.rs", "hooq-macros/src/impls/inert_attr/parse.rs", "hooq-macros/src/impls/method/render/mod.rs"]}
{"id": "C19", "title": "Target hooked at most once per kind", "statement": "Each syntactic target gets at most one hook, and code produced by a hook template is never itself hooked.", "quantifier": "every item, every target, every template (including templates containing `?` or `return`)", "why_tests_cant": "Needs an argument about the order of visiting and rewriting.", "anchors": ["hooq-macros/src/impls/walker/mod.rs", "hooq-macros/src/impls/method/render/mod.rs: render_expr_with_method"]}
{"id": "C20", "title": "Applying hooq to nested annotated items", "statement": "An item inside the annotated item that itself carries `#[hooq]` keeps that attribute, so its targets are hooked by the outer expansion and once more by its own.", "quantifier": "every nesting of annotated items", "why_tests_cant": "Concerns composition of expansions.", "anchors": ["hooq-macros/src/impls/inert_attr/parse.rs: get_binding_name", "hooq-macros/src/impls/walker/mod.rs: walk_item"]}
{"id": "C21", "title": "Templates without `$` are copied verbatim", "statement": "A method template containing no `$` is inserted token for token, including nested groups, literals and punctuation.", "quantifier": "every token stream without `$`, every context", "why_tests_cant": "Token trees nest without bound.", "anchors": ["hooq-macros/src/impls/method/render/mod.rs: expand_meta_vars"]}
{"id": "C22", "title": "Meta variable resolution", "statement": "`$x` expands to the built-in of that name (with its documented aliases) if there is one, otherwise to the binding x in force, otherwise expansion fails; built-ins cannot be shadowed by bindings. Substitution is position-wise: all other tokens are unchanged and each `$x` is replaced independently of its surroundings.", "quantifier": "every identifier, every template, every set of bindings", "why_tests_cant": "All identifiers and templates.", "anchors": ["hooq-macros/src/impls/method/render/mod.rs: meta_vars2token_stream", "hooq-macros/src/impls/method/render/meta_vars.rs: MetaVars::from_str"]}
{"id": "C23", "title": "$so_far expands the overridden method", "statement": "`$so_far` expands to the template that the method in force overrides, itself fully expanded for the same target, recursively to any depth; it fails exactly when nothing was overridden, and expansion always terminates.", "quantifier": "every chain of overriding methods, any number of `$so_far` occurrences in each", "why_tests_cant": "Chains are unbounded and termination is not testable.", "anchors": ["hooq-macros/src/impls/method/render/mod.rs: expand_meta_vars, meta_vars2token_stream", "hooq-macros/src/impls/inert_attr/context.rs: LocalContextField::get_overridden_ancestor"]}
{"id": "C24", "title": "Malformed `$` is reported", "statement": "A `$` in a template that is not directly followed by an identifier makes expansion fail with an error.", "quantifier": "every template, every position of `$` (also inside groups and at the end of a group or template)", "why_tests_cant": "All templates.", "anchors": ["hooq-macros/src/impls/method/render/mod.rs: expand_meta_vars"]}
{"id": "C25", "title": "$bindings is complete, exact and deterministic", "statement": "`$bindings` (and the bindings in `$hooq_meta`) lists each binding in force exactly once with its value in key order, independent of hash map iteration order and of the order in which bindings were defined.", "quantifier": "every set of bindings and every iteration order of the hash map", "why_tests_cant": "Iteration order is randomized per process; a test sees one order.", "anchors": ["hooq-macros/src/impls/inert_attr/context.rs: HookInfo::available_bindings", "hooq-macros/src/impls/method/render/mod.rs: get_bindings_token_stream"]}
{"id": "C26", "title": "Location meta variables", "statement": "`$line`, `$column`, `$path` are the position of the target's anchor token (`?`, `return`, or the first token of the tail expression); `$file` is the last `/`-separated component of `$path`.", "quantifier": "every target and every span", "why_tests_cant": "All positions and all path strings.", "anchors": ["hooq-macros/src/impls/method/render/mod.rs: meta_vars2token_stream, get_file_name", "hooq-macros/src/impls/walker/mod.rs"]}
{"id": "C27", "title": "Inserted tokens point at the target", "statement": "Every top-level token of the inserted text carries the span of the target's anchor, so type errors in hooks are reported at the target.", "quantifier": "every template and target", "why_tests_cant": "All templates.", "anchors": ["hooq-macros/src/impls/method/render/mod.rs: render_expr_with_method (spanned)"]}
{"id": "C28", "title": "Method syntax", "statement": "A method text starting with `.` is inserted after the operand; any other text replaces it. With consume-question exactly one trailing `!` is split off as the consume marker; without the feature the text is never altered.", "quantifier": "every token stream, both feature settings", "why_tests_cant": "All token streams.", "anchors": ["hooq-macros/src/impls/method/mod.rs: Method::parse, split_tail_exclamation"]}
{"id": "C29", "title": "hook_targets lists behave as sets", "statement": "A hook_targets list enables exactly the union of the kinds its entries name, independent of order and repetition, and is rejected exactly when some entry is not a known name (the reported name being the first unknown one).", "quantifier": "every list of strings", "why_tests_cant": "Unbounded lists.", "anchors": ["hooq-macros/src/impls/inert_attr/context.rs: HookTargetSwitch::try_from"]}
{"id": "C30", "title": "Several attributes on one node", "statement": "On one node, for method, hook_targets, tail_expr_idents, result_types, hook_in_macros and each binding the last attribute that sets it wins; ignore idents given by lists accumulate in order, a `!x` entry in tail_expr_idents being the same as an ignore_tail_expr_idents entry x; attributes that set different things commute.", "quantifier": "every list of attributes on a node", "why_tests_cant": "All sequences of attributes.", "anchors": ["hooq-macros/src/impls/inert_attr/parse.rs: extract_hooq_info_from_attrs, Strings::split_include_or_not_include"]}
{"id": "C31", "title": "Unknown hooq attributes are rejected, foreign ones ignored", "statement": "An attribute whose path starts with `hooq::` and is not a known form is an error, never silently dropped; an attribute whose path does not start with `hooq` never causes an error and never influences the expansion.", "quantifier": "every attribute", "why_tests_cant": "All attribute paths and argument token streams.", "anchors": ["hooq-macros/src/impls/inert_attr/parse.rs: extract_hooq_info_from_attrs, get_binding_name"]}
{"id": "C32", "title": "#[hooq::flavor = F] replaces every setting by F's", "statement": "Below a node annotated only with `#[hooq::flavor = F]` all settings are those of F as resolved from presets and hooq.toml, bindings of F overriding but not removing inherited bindings; trait uses are not affected.", "quantifier": "every flavor, every enclosing context", "why_tests_cant": "All flavors and contexts.", "anchors": ["hooq-macros/src/impls/inert_attr/parse.rs: extract_hooq_info_from_attrs"]}
{"id": "C33", "title": "Flavor path spelling", "statement": "A flavor named by a path `a::b` or by a string with `::` or `.` as separators denotes the same flavor; the spelling is rejected exactly for the documented reasons (empty component, generic arguments, leading colon), and displaying a path and parsing it again gives the same path.", "quantifier": "every path and string", "why_tests_cant": "All strings.", "anchors": ["hooq-macros/src/impls/flavor/flavor_path.rs: FlavorPath"]}
{"id": "C34", "title": "Flavor lookup", "statement": "Looking up a flavor path returns the flavor reached by following the components through sub-flavors and fails, listing every existing flavor path and nothing else, when a component does not exist.", "quantifier": "every store, every path", "why_tests_cant": "All stores and paths.", "anchors": ["hooq-macros/src/impls/flavor/mod.rs: get_flavor, get_flavor_inner, all_flavor_names"]}
{"id": "C35", "title": "hooq.toml overrides field by field", "statement": "A table `[X]` sets exactly the fields it mentions; every field it does not mention keeps the value of the preset X, or for a new sub-flavor the value of its parent, or for a new top-level flavor the default preset; bindings are merged.", "quantifier": "every hooq.toml, every table at every nesting depth, every field", "why_tests_cant": "All configuration files.", "anchors": ["hooq-macros/src/impls/flavor/toml_load/apply.rs: update_flavor_inner, update_flavors"]}
{"id": "C36", "title": "hooq.toml is order independent", "statement": "The flavors that result from a hooq.toml do not depend on the order in which its tables and bindings are iterated.", "quantifier": "every file, every iteration order of the hash maps at every level", "why_tests_cant": "Hash map order is randomized; a test sees one order.", "anchors": ["hooq-macros/src/impls/flavor/toml_load/apply.rs: update_flavors, update_flavor_inner"]}
{"id": "C37", "title": "`empty` cannot be overridden", "statement": "A hooq.toml that defines a flavor called `empty` is rejected; after any accepted file the flavor `empty` is the preset.", "quantifier": "every hooq.toml", "why_tests_cant": "All configuration files.", "anchors": ["hooq-macros/src/impls/flavor/toml_load/apply.rs"]}
{"id": "C38", "title": "Flavors not mentioned are unchanged", "statement": "Flavors that a hooq.toml does not mention (presets and their sub-flavors included) resolve to exactly their preset definition.", "quantifier": "every hooq.toml, every flavor path not mentioned", "why_tests_cant": "All configuration files.", "anchors": ["hooq-macros/src/impls/flavor/toml_load/apply.rs: update_flavors", "hooq-macros/src/impls/flavor/mod.rs: FlavorStore"]}
{"id": "C39", "title": "Configuration cache never panics and is consistent", "statement": "In any interleaving of expansions over any number of projects in one compiler process, requesting the configured flavors never panics, and returns the flavors of that project's own hooq.toml as read when the cached copy was last (re)loaded.", "quantifier": "every history of load/get operations by any number of clients, every sequence of file contents", "why_tests_cant": "Histories and interleavings are unbounded.", "anchors": ["hooq-macros/src/impls/flavor/mod.rs: TomlStore, FlavorStore::with_hooq_toml, CheckedHooqToml"]}
{"id": "C40", "title": "A broken hooq.toml is reported every time", "statement": "If hooq.toml cannot be read, parsed or applied, every expansion that needs it fails with that error; a failed load never leaves a cached state behind, and a missing file means presets only.", "quantifier": "every history of loads and every file content", "why_tests_cant": "Histories are unbounded.", "anchors": ["hooq-macros/src/impls/flavor/mod.rs: TomlStore::load, with_hooq_toml"]}
{"id": "C41", "title": "Root attribute", "statement": "`#[hooq(F, trait_use(P..), ...)]` selects the last flavor given (default when none) and emits `use P as _;` for every trait path of the attribute in order followed by those of the flavor, before the item; malformed arguments are rejected.", "quantifier": "every root argument list", "why_tests_cant": "All argument lists.", "anchors": ["hooq-macros/src/impls/root_attr/parse.rs", "hooq-macros/src/impls/root_attr/mod.rs: RootContext::load, trait_uses_token_stream", "hooq-macros/src/impls/mod.rs: hooq_impls"]}
{"id": "C42", "title": "String truncation law", "statement": "Truncating a string literal to max_len leaves it unchanged when it has at most max_len characters, and otherwise yields a prefix of the original, `..`, and a suffix of the original, at most max_len characters long in total; truncating twice is the same as once.", "quantifier": "every string (any Unicode), every max_len", "why_tests_cant": "All strings and lengths.", "anchors": ["hooq-macros/src/impls/utils/source_excerpt.rs: TruncateLitStrFolder (truncate)"]}
{"id": "C43", "title": "Truncation touches only long string literals", "statement": "Truncation of an expression changes no token other than string literals longer than the limit.", "quantifier": "every token tree", "why_tests_cant": "Token trees nest without bound.", "anchors": ["hooq-macros/src/impls/utils/source_excerpt.rs: truncate folder"]}
{"id": "C44", "title": "Excerpt law", "statement": "An excerpt to n lines of a text of more than n lines shows the first line, one `...` marker and the last n-1 lines in order; a text of at most n lines is shown in full.", "quantifier": "every text, every n", "why_tests_cant": "All texts and limits.", "anchors": ["hooq-macros/src/impls/utils/source_excerpt.rs: into_excerpted_line_pretty_str"]}
{"id": "C45", "title": "Line numbers in excerpts are right", "statement": "With @show_line_num every shown line is labelled with its line number in the source file, the first line marked `>` and the others `|`, all labels having the same width.", "quantifier": "every text, every start line, every excerpt", "why_tests_cant": "All texts.", "anchors": ["hooq-macros/src/impls/utils/source_excerpt.rs: add_line_prefix, into_excerpted_line_pretty_str"]}
{"id": "C46", "title": "Pretty printing keeps the layout", "statement": "Tokens are printed in order, on the line offset (relative to the first token) they have in the source, and nothing but white space is added.", "quantifier": "every token tree with monotone spans", "why_tests_cant": "All token streams and layouts.", "anchors": ["hooq-macros/src/impls/utils/source_excerpt.rs: into_pretty_str_inner, add_tt"]}
{"id": "C47", "title": "One-line output is one line", "statement": "one_line_stringify! output contains no line break when no token text does, and is the pretty output with each line trimmed and joined by single spaces.", "quantifier": "every token tree", "why_tests_cant": "All token streams.", "anchors": ["hooq-macros/src/impls/utils/source_excerpt.rs: into_one_line_pretty_str"]}
{"id": "C48", "title": "Option parsing of excerpt macros", "statement": "Options of the excerpt macros are recognized in any order, a later one overriding an earlier one of the same name, defaults apply for missing ones, unknown options are rejected, and the remaining tokens are the payload unchanged.", "quantifier": "every option prefix and payload", "why_tests_cant": "All argument streams.", "anchors": ["hooq-macros/src/impls/utils/source_excerpt_macros.rs"]}
{"id": "C49", "title": "HooqMeta.get_binding", "statement": "get_binding::<T>(k) returns the bound value exactly when k is bound and its stored type is T, otherwise none; it never returns a value of another type or key.", "quantifier": "every binding table, key and type", "why_tests_cant": "All keys and types.", "anchors": ["hooq-helpers/src/lib.rs: HooqMeta::get_binding"]}
{"id": "C50", "title": "The hooked method applies to the whole target value", "statement": "The inserted `.method` is applied to the value of the whole operand/return value/tail expression, not to a part of it.", "quantifier": "every target expression of every precedence", "why_tests_cant": "All expression forms and nestings.", "anchors": ["hooq-macros/src/impls/method/render/mod.rs: render_expr_with_method", "hooq-macros/src/impls/walker/mod.rs"]}
{"id": "C51", "title": "Predefined flavors always expand", "statement": "Under each preset flavor (with the bindings it defines in force) the method template expands without error at every target.", "quantifier": "every preset and sub-preset, every target and context that only adds bindings", "why_tests_cant": "All targets and contexts.", "anchors": ["hooq-macros/src/impls/flavor/presets/", "hooq-macros/src/impls/method/render/mod.rs"]}
{"id": "C52", "title": "Method inherited without its bindings fails loudly", "statement": "`#[hooq::method = F]` takes only F's method: if that template needs a binding which is not in force, expansion fails naming that binding rather than inserting an incomplete hook.", "quantifier": "every flavor and context", "why_tests_cant": "All flavors and contexts.", "anchors": ["hooq-macros/src/impls/inert_attr/parse.rs", "hooq-macros/src/impls/method/render/mod.rs: meta_vars2token_stream"]}
{"id": "C53", "title": "The helper crate name is resolved once per process", "statement": "In every history of requests in one compiler process, the path of the helper macros that the preset methods name is the one found for the project of the first request: `hooq` (or else `hooq-macros`) under the name it has there, with `-` read as `_`; every later request, for whatever project, gets flavors made with that same path.", "quantifier": "every history of requests and changes of CARGO_MANIFEST_DIR, every result of the crate lookup", "why_tests_cant": "Histories over several projects in one process are unbounded and hosted by the compiler or IDE.", "anchors": ["hooq-macros/src/impls/utils/get_hooq_crate_name.rs: get_hooq_crate_name, get_source_excerpt_helpers_name_space", "hooq-macros/src/impls/flavor/mod.rs: FlavorStore::new, default_method"]}
{"id": "C54", "title": "A macro body is read as code all or not at all", "statement": "The body of a macro invocation is treated as code exactly if it is a sequence of pieces with `,` or `;` between them (and optionally after the last), each read in the first of the ways file, item, expression, statement that stops at a separator or the end. The pieces and separators in order are the tokens of the body: none is lost, added or moved. Only the last piece can lack a separator. If the body is not such a sequence, it is left as it is, without hooks and without an error.", "quantifier": "every token sequence of a macro body, every behaviour of the syn parsers (faithful and reading at least one token where needed)", "why_tests_cant": "Bodies are arbitrary token sequences, read with backtracking over four parsers; a piece lost or read in the wrong way shows only for particular bodies.", "anchors": ["hooq-macros/src/impls/walker/walk_macro.rs: handle_token_stream, Evaluable::parse, EvaluableList::parse"]}
{"id": "C55", "title": "Attribute arguments are read exactly", "statement": "The string arguments of an inert attribute are the string literals in order, with commas between them and optionally one after the last; anything else is an error. The macro switch takes `true` or `false` alone and is set to that value. Entries of tail_expr_idents with a leading `!` are the ignored identifiers without the `!`, all others the tail identifiers, both in order.", "quantifier": "every token sequence, every list of strings", "why_tests_cant": "Argument lists are unbounded token sequences; a parser that drops, reorders or tolerates a token shows only on particular ones.", "anchors": ["hooq-macros/src/impls/inert_attr/parse.rs: Strings::parse, Strings::split_include_or_not_include, extract_hooq_info_from_attrs"]}
{"id": "C56", "title": "Exact suppression law for skip and skip_all", "statement": "A reached target that is enabled (and, for return and tail, wanted) is hooked exactly if it is not suppressed; it is suppressed exactly if the nearest enclosing node with a skip attribute has `skip_all`, or has `skip` and no scope is entered on the way from it to the target.", "quantifier": "every item, every nesting of skip and skip_all attributes, every position", "why_tests_cant": "The two attributes interact over unbounded nesting; an inner skip changes the effect of an outer skip_all.", "anchors": ["hooq-macros/src/impls/inert_attr/context.rs: HookContext, SkipStatus", "hooq-macros/src/impls/walker/mod.rs: handle_inert_attrs"]}
{"id": "C57", "title": "Exact law for `$` in templates", "statement": "At a target the method in force expands exactly if in its template, at every depth, each `$` that has a follower in its group is followed by a name that stands for something there: a built-in variable other than so_far, so_far if an overridden method exists and can itself be expanded, or a binding in force. A `$` at the end of a group vanishes, unless it follows another `$`. Every hook in an output comes from a method that is expandable at its target.", "quantifier": "every template, every chain of overridden methods, every set of bindings, every item and position", "why_tests_cant": "Templates nest without bound and overridden methods chain; success depends on all of them together.", "anchors": ["hooq-macros/src/impls/method/render/mod.rs: expand_meta_vars, meta_vars2token_stream"]}
{"id": "C58", "title": "The built-in flavors do what the reference says", "statement": "Exactly the documented flavor paths exist, depending on the cargo features. Each has the documented settings, trait imports and log level. Under a built-in flavor other than empty, and where no attribute overrides it: every reached ? is hooked unless skipped; a return or a function tail is hooked exactly if it is not skipped and the value is an Err(..) call, or the innermost function returns a Result and the value is not an Ok(..) call; other tails only if they are an Err(..) call; macro bodies are entered. Under empty macro bodies are not entered. Each hook is spelled token by token as documented, with the file, line and column of its anchor; for empty the text is the expression itself.", "quantifier": "every cargo feature set, every helper name space without $, every item and position, every store that still has the built-in flavor", "why_tests_cant": "The tables are fixed, but what they do depends on every item and position they are applied to; the shipped tests show a few functions per flavor.", "anchors": ["hooq-macros/src/impls/flavor/mod.rs:32-71", "hooq-macros/src/impls/flavor/presets/", "docs/en/hooq-mdbook-en/src/reference/flavors.md"]}
{"id": "C59", "title": "hooq.toml is read strictly", "statement": "A document is accepted as hooq.toml exactly if every top-level entry is a table, in every flavor table every one of the eight settings has its type (string, array of strings, boolean, table of strings), and every other entry is a table. A misspelt setting is therefore an error and never ignored. The flavor tables are exactly the tables of the document at paths without a setting name after the first component, with exactly the settings written there, and each gives a flavor at its path.", "quantifier": "all documents without duplicate keys, all paths, all parsers of paths, templates and expressions", "why_tests_cant": "Tests load two fixed documents; the rejected and accepted documents are infinitely many and nested to any depth.", "anchors": ["hooq-macros/src/impls/flavor/toml_load/mod.rs:7-27", "hooq-macros/src/impls/flavor/toml_load/apply.rs:76-156"]}
{"id": "C60", "title": "Exactly what an expansion changes", "statement": "All code but hooks and attributes is kept. A node that the macro reaches keeps its place, kind and number of parts. It keeps its foreign attributes, except that a consumed ? loses all its attributes and a file in a macro body its inner ones; inert attributes stay exactly on the nodes whose attributes the macro does not look at. A node that is not reached is the same token for token.", "quantifier": "every item, all settings, every position", "why_tests_cant": "An item has unboundedly many nodes; an attribute lost on one kind of node in one context shows only on particular inputs.", "anchors": ["hooq-macros/src/impls/walker/mod.rs", "hooq-macros/src/impls/inert_attr/parse.rs: extract_hooq_info_from_attrs", "hooq-macros/src/impls/method/render/mod.rs: render_expr_with_hook_method"]}
{"id": "C61", "title": "Exactly when an expansion succeeds", "statement": "If at the reached positions the attributes are well-formed and the method, where it is used, is an insertion that expands and re-parses, then the expansion succeeds if and only if no expression that is to be hooked is one that cannot carry a method call as it is written (a cast, an open range, ...). In particular this holds for an item without inert attributes under a method that works.", "quantifier": "every item, all settings with distinct bindings", "why_tests_cant": "Failure depends on all positions of an unbounded item at once, and on what the walk made of the sub-expressions before.", "anchors": ["hooq-macros/src/impls/walker/mod.rs", "hooq-macros/src/impls/method/render/mod.rs", "hooq-macros/src/impls/mod.rs"]}
{"id": "C62", "title": "Exact truncation law", "statement": "For every limit n, 0 and 1 included, a string literal of the syntax tree is truncated line by line: a line of at most n characters stays; of a longer one the first floor((n-2)/2) and the last ceil((n-2)/2) characters stay with `..` between them (only `..` if n < 2). All other tokens stay the same, and every such literal is spelled anew from its value. The default limit is 10.", "quantifier": "every text, every limit, every expression", "why_tests_cant": "Limits, lengths and the number of lines are unbounded; off-by-one errors show for particular combinations.", "anchors": ["hooq-macros/src/impls/utils/source_excerpt.rs:215-288"]}
{"id": "C63", "title": "Exact excerpt law", "statement": "An excerpt to n lines is an error exactly for n = 0. For n = 1 it is the last line; otherwise all lines, if they are at most n, or else the first line, `...` and the last n - 1 lines; always between the paddings.", "quantifier": "every expression, all settings", "why_tests_cant": "Number of lines and limit are unbounded.", "anchors": ["hooq-macros/src/impls/utils/source_excerpt.rs:147-213"]}
{"id": "C64", "title": "Exact layout and line numbers, tokens with line breaks included", "statement": "The pretty-printed text is the tokens in order, the first after four blanks, and each other one after the line breaks and blanks that separate it from its predecessor's place in the source. Printed lines are numbered consecutively from the line where the expression starts. So a token without line breaks is shown with its source line plus the number of line breaks inside of earlier tokens.", "quantifier": "every token stream, every position in it, all settings", "why_tests_cant": "The drift after multi-line tokens depends on arbitrary token streams.", "anchors": ["hooq-macros/src/impls/utils/source_excerpt.rs:44-76", "hooq-macros/src/impls/utils/source_excerpt.rs:290-449"]}
{"id": "C65", "title": "Exact spelling of flavors", "statement": "A string denotes the path of components that are not empty, contain neither `.` nor `::`, and are separated by `.` or `::` (of three colons the first two are the separator); every other string is rejected. A path denotes the names of its segments, with or without a leading `::`, and is rejected exactly if a segment has arguments. A displayed path is read back as the same path exactly if its names are such components and none but the last ends with a colon.", "quantifier": "every string, every path, every component list", "why_tests_cant": "Strings are unbounded; ambiguous spellings need particular runs of colons.", "anchors": ["hooq-macros/src/impls/flavor/flavor_path.rs"]}
{"id": "C66", "title": "Origin of every configuration, under any change of the environment", "statement": "In every history, also when CARGO_MANIFEST_DIR changes at any time: a successful request answers with the presets (built with the helper path found by the first request) if it saw no file in the directory the variable named when it looked for the file, or else with the presets and tables that it read from that directory, or that it found in the cache under the value of the variable at its beginning; those were the last stored there, by a request that had read them from the directory named when it looked for the file, and stored them under the value of the variable after the read. A failing request reports the file in the directory it looked at as it was when it was read.", "quantifier": "every history, every change of variable and files, any number of requests", "why_tests_cant": "Interleavings are unbounded; the variable must change inside a request.", "anchors": ["hooq-macros/src/impls/flavor/mod.rs: CheckedHooqToml, TomlStore, FlavorStore::with_hooq_toml"]}
{"id": "C67", "title": "Exact law of the second expansion", "statement": "When an item inside the annotated item carries `#[hooq]` itself, its own expansion works on the output of the outer one, read again. Every `?` of the source that the outer expansion reached and did not consume is hooked by it exactly if the settings of the inner `#[hooq]` contain `?`; a `return` value or a tail expression exactly if they contain that kind, and the value as it then is satisfies the rule for callees and the declared return type inside the inner item. Inert attributes inside the inner item have no influence on it, since the outer expansion has removed them. A value that the outer expansion hooked with a method call is no call of a path any more, so that only the return type counts for it.", "quantifier": "every item, every inner item in it, every pair of settings, every position inside", "why_tests_cant": "Composes two expansions over all programs; the repository's tests expand nested annotated items only in one arrangement.", "anchors": ["hooq-macros/src/impls/walker/mod.rs: walk_item", "hooq-macros/src/impls/inert_attr/mod.rs: extract_hooq_info_from_attrs", "hooq-macros/src/lib.rs: hooq"]}
{"id": "C68", "title": "The same code under the same settings is expanded the same way", "statement": "What an expansion makes of a piece of code depends only on the code, the settings in force there and the function around it: at two places where these agree, in whatever items, under whatever attributes and root arguments, the results are the same up to the running numbers, which differ by one fixed amount per kind. In particular, an item or method inside an annotated item, with no inert attribute and no function around it, is expanded as if it had been annotated itself with the same arguments; annotating a module is annotating each of its items, with the numbers continuing from item to item, and it fails exactly with the error of the first item that fails on its own.", "quantifier": "every pair of items, arguments and positions; every module", "why_tests_cant": "Relates two expansions of arbitrary programs; the tests have one recorded module and never compare it with separately annotated functions.", "anchors": ["hooq-macros/src/impls/walker/mod.rs: walk_item (Item::Mod)", "hooq-macros/src/impls/inert_attr/context.rs: HookContext, Counter", "docs/en/hooq-mdbook-en/src/recipe/batch_apply.md"]}
{"id": "C69", "title": "Hooks that change nothing leave the behaviour as it was", "statement": "Take any compositional semantics of the code (the meaning of a construct is an arbitrary function of the construct and the meanings of its parts) and any relation between meanings that all constructs respect. If every hook that the expansion puts in is transparent for the relation (operand with hook relates to operand without; a hook in place of a `?` does what the `?` does), then the meaning of the expanded item relates to the meaning of the item. In particular, if the hooks mean nothing, the expanded item means exactly the same.", "quantifier": "for all items, attribute arguments, environments, for which the expansion succeeds, all semantics and relations, including low-precedence expressions where the inserted method lands on the last operand", "why_tests_cant": "Tests run a handful of programs with the shipped presets; the property is about every program, every semantics and every transparent hook at once.", "anchors": ["hooq-macros/src/impls/walker/mod.rs:1-1047", "hooq-macros/src/impls/walker/hook_expr.rs", "hooq-macros/src/impls/method/render/mod.rs:51-100", "hooq-macros/src/impls/walker/walk_macro.rs"]}
{"id": "C70", "title": "The span of every token of a hook", "statement": "Every token of an inserted text has a determined span. At the top level it is the span of the anchor of the target, except for the `.` of an inserted method, which is the `.` that was written. Inside groups, at any depth, a token is one written in a method in force at the target, with the span it was written with, or a group or literal made by the macro, with the span of the macro call, or belongs to code spliced in for a variable. A method without `$` comes out token by token as written but for the spans of the top level and of groups.", "quantifier": "for all items, attribute arguments, environments, for which the expansion succeeds, all positions, all methods of any nesting depth and any chain of `$so_far`", "why_tests_cant": "Tests compare printed code, which has no spans; where errors in inserted code point is seen only by looking at compiler messages.", "anchors": ["hooq-macros/src/impls/method/render/mod.rs:22-86", "hooq-macros/src/impls/method/render/mod.rs:88-155", "hooq-macros/src/impls/method/render/mod.rs:215-330"]}
{"id": "C71", "title": "Which error is reported", "statement": "When an expansion fails, the error reported is that of the first failure in a fixed order. The arguments of the root attribute come first, from left to right, then the loading of the configuration, then the look-up of the flavor. Then the code is processed: the attributes of a node as written, then its parts from left to right, then its hook. A hook fails with the first error in its template from left to right, with that of an overridden method where `$so_far` stands, or with a panic if the text to be emitted does not parse. Each kind of error has a determined message.", "quantifier": "for all items that are source code, attribute arguments, environments, and all errors", "why_tests_cant": "A test has one error at a time; which of several is shown, and that nothing before it was wrong, concerns all pairs of failures at all positions.", "anchors": ["hooq-macros/src/impls/walker/mod.rs", "hooq-macros/src/impls/inert_attr/parse.rs:123-393", "hooq-macros/src/impls/root_attr/parse.rs:12-65", "hooq-macros/src/impls/root_attr/mod.rs:46-93", "hooq-macros/src/impls/method/render/mod.rs:88-155"]}
{"id": "C72", "title": "Which return type decides", "statement": "A `return` of a value, where returns are hooked at all, gets a hook exactly when the value is a call of a tail ident, or the function or closure entered last on the way has a declared return type that ends in a result type in force there and the value is no call of an ignored ident. Async blocks, consts, statics and modules in between do not count, and outside of any function no return type is a result type. For the tail of a function or closure body the rule is the same; the tail of any other block is hooked only if it is a call of a tail ident.", "quantifier": "for all items, attribute arguments, environments for which the expansion succeeds, all positions, at any nesting of functions, closures, async blocks, consts and other items", "why_tests_cant": "Tests nest at most two functions and never an async block or a const in a function with an expectation about its return type.", "anchors": ["hooq-macros/src/impls/walker/mod.rs:60-110", "hooq-macros/src/impls/walker/mod.rs:440-472", "hooq-macros/src/impls/inert_attr/context.rs:316-352", "hooq-macros/src/impls/utils/function_info.rs:73-91"]}
{"id": "C73", "title": "Error messages point at the culprit and offer exactly what would be accepted", "statement": "If an expansion stops with an error of a method template, the error points at the token after a `$` in the method in force at some target that is to be hooked, or in a method that it overrides (for `$so_far` without anything to override: in the last one). For an unknown name, the message offers exactly the bindings in force at that target (in alphabetical order, whatever the order of the hash map) and the built-in variables; the unknown name is not offered, and every offered name except `so_far` would be accepted there. The message for a flavor that does not exist, and the one for a bad argument of the root attribute, offer exactly the flavors that exist (none if the configuration cannot be loaded), and an offered flavor whose names contain no separators is accepted as spelled.", "quantifier": "all items, settings, configurations, templates (nested groups, chains of overridden methods), binding sets; all flavor maps", "why_tests_cant": "The list of bindings depends on scoping and on hash order; tests look at a few messages with one or two bindings. The position of the error is lost when a template is expanded for another method through `$so_far`, a case no test has.", "anchors": ["hooq-macros/src/impls/method/render/mod.rs:90-156", "hooq-macros/src/impls/method/render/mod.rs:278-340", "hooq-macros/src/impls/method/render/meta_vars.rs:20-78", "hooq-macros/src/impls/flavor/mod.rs:170-208", "hooq-macros/src/impls/root_attr/parse.rs:33-54"]}
{"id": "C74", "title": "Where an expansion may stand", "statement": "An item that may stand in a place (module, function body, impl, trait) is replaced by code that may stand there too, except that an impl or trait body takes no `use`: there the expansion fits exactly when neither the arguments nor the selected flavor import a trait. Of the built-in flavors these are all but anyhow, eyre and color_eyre. The imports depend on the arguments alone, never on flavors chosen by attributes inside. An error anywhere leaves nothing of the item; an item that cannot be read is reported whatever the arguments and the configuration are.", "quantifier": "for all token streams of attribute and item, parsers, configurations, flavors and places", "why_tests_cant": "Each combination of place, arguments and configuration is another program; the snapshot tests put #[hooq] with imports on module level only, where nothing can go wrong.", "anchors": ["hooq-macros/src/lib.rs:14-24", "hooq-macros/src/impls/mod.rs:15-28", "hooq-macros/src/impls/root_attr/mod.rs:30-35"]}
{"id": "C75", "title": "Exactly which hooq.toml is accepted and what it makes of the flavors", "statement": "A hooq.toml is accepted exactly if no table, at any depth, has a defect: an empty name, the name `empty`, a trait path, method or binding that does not parse, or an unknown hook target; the error reported is a defect of some table (an unknown target is the first unknown one of its list). After an accepted file a path names a flavor exactly if it named one before, or has a table, or is a sub-flavor that a new sub-flavor took over from its parent: a new sub-flavor starts with the settings of its parent as changed by the file and with all sub-flavors the parent had before. A flavor without a table is unchanged; the flavor of a table has the fields of the table over those it starts from, with the trait uses always those of the table, even if it has none. This determines every setting of every path, up to the order of bindings.", "quantifier": "all files without duplicate keys, all flavor maps, all paths, all parsers", "why_tests_cant": "Tests load two files; acceptance and result concern all nestings of tables, and the sub-flavors that a new sub-flavor takes over are in no test.", "anchors": ["hooq-macros/src/impls/flavor/toml_load/apply.rs:11-156", "hooq-macros/src/impls/flavor/mod.rs:32-50"]}
{"id": "C76", "title": "What part of a value the hook applies to", "statement": "A method inserted at an expression applies to exactly what a method call written there by hand applies to: to the whole expression exactly if it ends at the strength of method calls; otherwise to its last operand; after a cast, an open range or a keyword without value there is no reading, and the expansion fails exactly when such an expression is to be hooked. Processing the parts of an expression does not change which of the three it is, and for `?` it is always the whole operand.", "quantifier": "all expressions, all token sequences, all items, all methods that insert", "why_tests_cant": "The operand is decided by the grammar of all expressions; tests hook calls and paths only.", "anchors": ["hooq-macros/src/impls/method/render/mod.rs:88-125", "hooq-macros/src/impls/walker/mod.rs"]}
{"id": "C77", "title": "The help text for inert attributes lists exactly the accepted formats", "statement": "Each line of the text shown for an unknown hooq attribute is either prose or a format. Whatever is written as a format line says (with any content in place of the example) is accepted and removed from the output, and every accepted hooq attribute is written as some format line says.", "quantifier": "all attributes, all contents in place of the examples, all environments (parsers and flavors), all contexts", "why_tests_cant": "The text is a constant that no test compares with the parser; acceptance concerns all contents of all attributes.", "anchors": ["hooq-macros/src/impls/inert_attr/parse.rs:70-95", "hooq-macros/src/impls/inert_attr/parse.rs:97-290"]}
{"id": "C78", "title": "How the arguments of the root attribute may be written", "statement": "The tokens in `#[hooq(..)]` are accepted exactly if they are arguments separated by commas, perhaps with one behind: a path of words (not keywords other than `self`, `Self`, `super`, `crate`; `unsafe` alone is allowed), perhaps with a leading `::`; `trait_use` or `trait_uses` with a delimited list of paths; or `flavor = \"..\"` with a well-formed flavor name. They say that the flavor is the last one given and that the trait paths are those of all lists in order, and never two different things. The macro then yields code exactly if the item is an item, the flavor exists (`default` if none is given) and the item can be processed with its settings.", "quantifier": "all token sequences, all environments, all items, all readers of values that read string literals", "why_tests_cant": "Tests write a handful of argument lists; which token sequences are accepted, and that no sequence has two meanings, concerns all of them.", "anchors": ["hooq-macros/src/impls/root_attr/parse.rs:11-123", "hooq-macros/src/impls/mod.rs:14-28", "hooq-macros/src/lib.rs:18-24"]}
{"id": "C79", "title": "How inert attributes may be written", "statement": "An attribute of a node is accepted exactly if it does not begin with `hooq::` or `::hooq::`, and then it stays, or if its tokens are `hooq::skip`, `hooq::skip_all`, `hooq::method` with any delimited tokens, one of the four list settings with string literals separated by commas (known names for hook_targets), `hooq::hook_in_macros` with `true` or `false`, `hooq::binding` or `hooq::var` with `name = value`, `hooq::name = value` for a name that is no setting, `::hooq::name = value` for any name, or `hooq::setting = flavor` for an existing flavor; then it is removed. The attributes of a node set what these texts say, in order, and no text says two different things.", "quantifier": "all token sequences, all lists of attributes, all environments, all readers of values", "why_tests_cant": "Tests write a handful of attributes; which token sequences are accepted, what they set, and that no sequence has two meanings, concerns all of them.", "anchors": ["hooq-macros/src/impls/inert_attr/parse.rs:16-393", "hooq-macros/src/impls/inert_attr/context.rs:142-168"]}
{"id": "C80", "title": "$count inside a function", "statement": "The targets of a kind that take a number inside a function, or inside any other part of the expanded code, get consecutive numbers in the order of completion. They begin behind the number of such targets of the same expansion that stand before the part; so they are the numbers within the function exactly if no such target stands before it.", "quantifier": "all items, all parts of them, all settings, all kinds", "why_tests_cant": "The offset depends on all code in front of the function; a test with one function per attribute never sees it.", "anchors": ["hooq-macros/src/impls/inert_attr/context.rs: Counter", "hooq-macros/src/impls/walker/hook_expr.rs: hook_expr", "docs/en/hooq-mdbook-en/src/reference/meta_vars.md:14"]}
{"id": "C81", "title": "Local variables a bound value can see", "statement": "The value of a binding is spliced into generated code. In $bindings and $hooq_meta every value can see exactly one variable of that code, a string named expr; under the flavors log and tracing the value of level can see exactly e, path, line, col and expr; under hook only expr; under the other built-in flavors no value is spliced. So get_binding gives the value the expression has where the hook stands if it does not mention expr, and if the expression is the variable expr it gives the text \"expr\" instead.", "quantifier": "all binding tables, all items, all settings of level, all run-time values", "why_tests_cant": "The snapshot tests bind literals and never a local variable that happens to be called expr, e, path, line or col.", "anchors": ["hooq-macros/src/impls/method/render/mod.rs:186-211 get_bindings_token_stream", "hooq-macros/src/impls/method/render/mod.rs:297-317", "hooq-macros/src/impls/flavor/presets/log.rs: log_method", "hooq-macros/src/impls/flavor/presets/tracing.rs: tracing_method"]}
{"id": "C82", "title": "Which flavors can be used at all", "statement": "A string can name a flavor path exactly if none of its names is empty or contains `.` or `::`; what a path of identifiers can name, a string can name. As the value of a flavor, strings select exactly the settings of the flavors of the store with such names. After an accepted hooq.toml on top of the built-in flavors every flavor there is can be named exactly if no key of a table, at any depth, contains `.` or `::`.", "quantifier": "every flavor path, every store, every hooq.toml, every combination of cargo features", "why_tests_cant": "The tests use plain keys only; a quoted key such as [\"a.b\"] is accepted, makes a flavor, and the flavor appears in the list of available flavors, but no spelling selects it.", "anchors": ["hooq-macros/src/impls/flavor/flavor_path.rs:48-66 TryFrom<String>", "hooq-macros/src/impls/flavor/mod.rs:159-183 get_flavor", "hooq-macros/src/impls/flavor/toml_load/apply.rs:35-156 update_flavor_inner"]}
{"id": "C83", "title": "The flavors that only look leave the behaviour as it was", "statement": "Under a built-in flavor other than `empty`, if no attribute of the item sets the method or the level, every hook of the expansion is put behind its operand, leaves the `?` in place, and is one call with one closure: inspect_err for default, log and tracing, with_context for anyhow, wrap_err_with for eyre and color_eyre, hook for hook. So in every compositional semantics of the code and for every relation between meanings that all constructs respect, if the relation cannot see such calls, it relates the meaning of the output to that of the input; in particular, if inspect_err with a closure means its operand, then the item means exactly the same under default, log and tracing as without the macro. Under `empty`, without attributes that set the hook targets, the item means the same in every semantics.", "quantifier": "every source item, every environment whose selected flavor is the built-in one, every compositional semantics and every congruence on it", "why_tests_cant": "The tests print what the expanded functions log and return for a few inputs; that the result of a function is never changed by a logging flavor is a statement about all code and all executions.", "anchors": ["hooq-macros/src/impls/flavor/presets/default.rs", "hooq-macros/src/impls/flavor/presets/log.rs", "hooq-macros/src/impls/flavor/presets/tracing.rs", "hooq-macros/src/impls/flavor/presets/anyhow.rs", "hooq-macros/src/impls/flavor/presets/eyre.rs", "hooq-macros/src/impls/flavor/presets/hook.rs", "hooq-macros/src/impls/flavor/presets/empty.rs"]}
{"id": "C84", "title": "The release script checks and restores the order of the repository", "statement": "With --check the script changes no file and no tag, and it succeeds exactly if the repository is in order: the two dependencies of hooq/Cargo.toml have the version of the workspace, the manifests are sorted, and all README files in both languages are those the templates give, showing the newest version that crates.io lists and that was not withdrawn (mode wip) or the version of the workspace (modes publish and add-tag). A successful run without --check leaves the repository in order, so that the check succeeds afterwards; it changes nothing but manifests and README files, and adds the tag of the version exactly in mode add-tag, where the tag did not exist. If manifests can be printed and cargo sort does not fail, the run succeeds exactly if the version, both dependencies, the templates and a free tag are there.", "quantifier": "every state of the files and tags, every mode, every answer of crates.io, every TOML library with parse after print the identity, every cargo sort that only rewrites manifests and keeps their strings", "why_tests_cant": "The script has no tests; CI runs it on the repository as it is.", "anchors": [".github/scripts/sync.rs:91-114 main", ".github/scripts/sync.rs:116-182 sync_sub_crate_versions", ".github/scripts/sync.rs:48-89 get_published_version", ".github/scripts/sync.rs:185-205 cargo_sort", ".github/scripts/sync.rs:207-275 sync_readme", ".github/scripts/sync.rs:277-297 git_tag"]}
{"id": "C85", "title": "Every version of the reference is built for its place", "statement": "After a successful run of the script for the books there is a book exactly for every listed version and for `latest`, in both languages; each is built from the checkout of its version, that of `latest` from the latest version; the index leads to exactly these books; and every book is built for the place where it is published (site-url /hooq/<directory>/<language>).", "quantifier": "every list of versions, every repository, every mdBook", "why_tests_cant": "The script has no tests; the output is published without a check.", "anchors": ["docs/generate_mdbooks.rs:50-108 build_books", "docs/generate_mdbooks.rs:110-125 main", "docs/generate_mdbooks.rs:155-166 index page"]}
{"id": "C86", "title": "Methods that are chains of calls never break the expansion", "statement": "If the methods in force are chains of calls (fields, method calls, calls, indices, `.await`, `?` behind the operand, with closures, blocks, paths, literals, macro calls and meta variables as arguments, `$so_far` after a dot), then what is inserted behind an operand is again such a chain, in which every variable has been replaced. So if syn parses an expression followed by a chain of calls, as the grammar says, an item with well-formed attributes expands if and only if nothing that is to be hooked is a cast, an open range or another expression that cannot carry a method call. The methods of all built-in flavors except `empty` are such chains, and under `empty` every item with well-formed attributes that switch nothing on expands.", "quantifier": "every item, every settings and attribute, every parser that accepts chains of calls, every helper path", "why_tests_cant": "Whether an inserted text parses is only found out by expanding; tests show it for the methods and operands they contain.", "anchors": ["hooq-macros/src/impls/walker/hook_expr.rs:6-28", "hooq-macros/src/impls/method/render/mod.rs:22-90", "hooq-macros/src/impls/flavor/mod.rs:52-71", "hooq-macros/src/impls/flavor/presets/*.rs"]}
{"id": "C87", "title": "An error about an attribute points at what is wrong in it", "statement": "An error about an inert attribute is shown in the attribute itself: at its beginning if the name is wrong or names a flavor that is not there, at the value behind `=` if the value is wrong, and otherwise in the arguments, at the first token with which what stands before it can no longer be continued to something accepted. The only exception is an attribute whose arguments are missing something at the end (`hook_in_macros()`, `binding(x)`, `binding(x =)`): that error is shown at `#[hooq]`. Of several attributes of a node, it is the first malformed one.", "quantifier": "All attribute texts (token sequences, with groups without delimiters at any place), all environments and configurations, all errors.", "why_tests_cant": "The position depends on how far syn's parser gets, in any of infinitely many malformed texts; the UI tests show a few.", "anchors": ["hooq-macros/src/impls/inert_attr/parse.rs:16-37", "hooq-macros/src/impls/inert_attr/parse.rs:96-121", "hooq-macros/src/impls/inert_attr/parse.rs:160-376"]}
{"id": "C88", "title": "Cargo features only add", "statement": "The features in force are those selected in Cargo and those that these ask for: every preset comes with its own feature, with `default` and with `full`; consume-question with itself and with `full`. If an expansion succeeds, it gives the same result after more features are selected, unless it mentions a flavor that only now comes with a feature and for which hooq.toml has a table, or a method ends in `!`. An expansion that failed fails in the same way, except that a flavor that was missing may now be found and that error messages may list other flavors. Without a method that ends in `!`, consume-question alone changes nothing, not even errors.", "quantifier": "every two sets of features one of which contains the other, every hooq.toml, every argument of #[hooq] and every item", "why_tests_cant": "Features are unified over the whole dependency graph, so any crate may switch them on for all others; each test of the repository is compiled with one set of features.", "anchors": ["hooq/Cargo.toml:36-51", "hooq-macros/src/impls/flavor/presets/mod.rs:20-39", "hooq-macros/src/impls/method/mod.rs:15-76", "hooq-macros/src/impls/flavor/toml_load/apply.rs:35-156", "docs/en/hooq-mdbook-en/src/reference/features.md"]}
{"id": "C89", "title": "What an expansion depends on in hooq.toml", "statement": "An expansion depends only on the flavors it uses: those that the arguments of #[hooq] select, `default` if they select none, and those that its inert attributes take settings from. Of an accepted hooq.toml only the tables on the way to these flavors matter: adding, removing or changing any other table leaves the result, or the error, the same, except for the flavors listed in an error message. The order in which tables, sub-tables and bindings come out of the hash maps is never to be seen in a result.", "quantifier": "every two hooq.toml files, every set of features, every argument of #[hooq] and every item", "why_tests_cant": "A test runs one program with one file; that the rest of the file does not matter is a statement about pairs of files. Hash-map order differs from run to run.", "anchors": ["hooq-macros/src/impls/flavor/toml_load/apply.rs:35-156", "hooq-macros/src/impls/flavor/mod.rs:89-300", "hooq-macros/src/impls/root_attr/parse.rs", "hooq-macros/src/impls/inert_attr/parse.rs:160-376"]}
{"id": "C90", "title": "How large an expansion gets", "statement": "Where hooks are put behind their operand and do not repeat it, code of size n becomes code of size at most n + 2n(K + cn), where K bounds the words of a hook and c how often it contains the source; so it grows by a constant factor if no hook contains the source. The built-in flavors other than empty and hook have c = 1 and K = 80 plus the path of the helper macros, so that the growth is at most quadratic, and chains of `?` attain that. A method that takes `$expr` twice doubles the code at each nested `?`: the size is exponential.", "quantifier": "every way to measure nodes and attributes, every environment, configuration, argument of #[hooq] and item", "why_tests_cant": "Tests expand small programs; a bound for all programs, and that it is attained, needs induction over the nesting of the code.", "anchors": ["hooq-macros/src/impls/method/render/mod.rs:22-90", "hooq-macros/src/impls/walker/mod.rs:60-110", "hooq-macros/src/impls/walker/mod.rs:396-472"]}
{"id": "C91", "title": "Where errors about the arguments of #[hooq(..)] are shown", "statement": "An error about the arguments of `#[hooq(..)]` is shown where it belongs. If the text is not written as arguments, the error is at the place where it stops being so, and such an error comes before all others; otherwise it is at the beginning of the first argument that is not accepted, at its string if that is not the name of a flavor, or in its paths. If the selected flavor does not exist or hooq.toml cannot be read, the error is at the beginning of the arguments, whichever of them names the flavor. The place is always a token of the arguments, or `#[hooq]` itself where the text ends too early.", "quantifier": "every text of arguments, every reader of values and paths, every environment and item", "why_tests_cant": "The repository tests no place of an error; the messages of rustc depend on them, and an argument may be wrong in unboundedly many ways, in groups without delimiters too.", "anchors": ["hooq-macros/src/impls/root_attr/parse.rs:11-123", "hooq-macros/src/impls/root_attr/mod.rs:46-93", "hooq-macros/src/impls/mod.rs:15-16"]}
{"id": "C92", "title": "The excerpt macros as a whole, and where their errors are shown", "statement": "Each of the four excerpt macros gives a result or one error. An input of options and a payload is rejected exactly if an option is not allowed or the payload is not an expression; excerpted_pretty_stringify! also rejects the limit 0. The first option that is not allowed is reported: a wrong value at the value, an unknown name or a missing value only at the whole call; a malformed option is reported at its `@`, wherever the mistake in it is. All errors but that about the limit are the same for the four macros, whether or not they use the option.", "quantifier": "every token stream, every reader of literals and expressions, all four macros", "why_tests_cant": "Inputs are unbounded sequences of options in groups of any depth; the repository tests no place of an error.", "anchors": ["hooq-macros/src/lib.rs:31-192", "hooq-macros/src/impls/utils/source_excerpt_macros.rs:28-277", "hooq-macros/src/impls/utils/source_excerpt.rs:147-160"]}
{"id": "C93", "title": "What the code behind $bindings and $hooq_meta computes", "statement": "The tokens that $bindings expands to compute exactly one value: a hash map from the name of every binding in force (as a String) to a payload made of the text of its value (as a String) and the value as an Rc<dyn Any>, evaluated with a variable expr that holds that text. The tokens that $hooq_meta expands to compute exactly one HooqMeta, whose fields line, column, path, file, source_str, count and bindings are those of the hook. So get_binding on it gives the value of the binding if it has the type asked for, and nothing otherwise.", "quantifier": "all binding tables, all places, all source texts, all evaluations of the user's expressions, all scopes", "why_tests_cant": "The snapshot tests compare tokens and the run-time tests look at a few bindings; a swapped field or a text bound to the wrong name need not show up.", "anchors": ["hooq-macros/src/impls/method/render/mod.rs:186-211 get_bindings_token_stream", "hooq-macros/src/impls/method/render/mod.rs:297-317", "hooq-helpers/src/lib.rs:17-52"]}
{"id": "C94", "title": "What the hooks of the built-in flavors do at run time", "statement": "Under a built-in flavor, where no attribute sets the method, the tokens of every hook do exactly one thing to the result of the target. An Ok stays and nothing is reported (except that under `hook` the user's method decides). An error stays and is reported once with the path, line and column of the target: `default` prints `[path:line:col] {e:?}`, a line break and the excerpt to the standard error stream; `log` logs `(path:line:col) {e}`, a line break and the excerpt at the level in force; `tracing` records the fields path, line, col, error and expr (one line) at the level in force. `anyhow` and `eyre` put `[path:line:col]`, a line break and the excerpt in front of the error and report nothing. `empty` does nothing. The level in force is the nearest `#[hooq::level = ..]`, else the level of the flavor. Under `hook` the user's method gets the result and a record of the place, the file, the count, the source and the bindings in force.", "quantifier": "all items, all positions, all error values and ways of showing them, all excerpts, all evaluations of the user's expressions, all scopes", "why_tests_cant": "The run-time snapshots cover a few programs per flavor; they do not show that no hook reports twice, swallows an error, touches an Ok, or shows the place of another target.", "anchors": ["hooq-macros/src/impls/flavor/mod.rs:52-71 default_method", "hooq-macros/src/impls/flavor/presets/log.rs:45-59", "hooq-macros/src/impls/flavor/presets/tracing.rs:45-65", "hooq-macros/src/impls/flavor/presets/anyhow.rs:15-28", "hooq-macros/src/impls/flavor/presets/eyre.rs:29-42", "hooq-macros/src/impls/flavor/presets/hook.rs:16-22", "hooq-macros/src/impls/flavor/presets/empty.rs:28-32", "hooq-macros/src/impls/method/render/mod.rs:24-150"]}
{"id": "C95", "title": "Observation by the built-in flavors does not change the program", "statement": "Under `default`, `log` and `tracing`, when no attribute sets the method (the level and other bindings may be set), every hook in the whole output stands behind its operand, keeps the `?`, and its tokens, run on any result, give that same result, reporting an error exactly once and an Ok never. Under `anyhow`, `eyre` and `color_eyre` they keep an Ok, put one text in front of an error, and report nothing. So for every compositional meaning of code and every relation that all constructs respect: if it does not see such hooks, it relates the output to the input.", "quantifier": "all items, all positions, all attributes that do not set the method, all results and error values, all compositional meanings and relations", "why_tests_cant": "A test compares a few programs before and after expansion; it cannot show that no program whatsoever changes its result under a logging flavor.", "anchors": ["hooq-macros/src/impls/flavor/mod.rs:52-71 default_method", "hooq-macros/src/impls/flavor/presets/log.rs:45-59", "hooq-macros/src/impls/flavor/presets/tracing.rs:45-65", "hooq-macros/src/impls/flavor/presets/anyhow.rs:15-28", "hooq-macros/src/impls/flavor/presets/eyre.rs:29-42", "hooq-macros/src/impls/walker/hook_expr.rs"]}
{"id": "C96", "title": "No error leaves a function unseen", "statement": "Under `default`, `log`, `tracing`, `anyhow`, `eyre` and `color_eyre`, in an item whose attributes set only bindings, take any function with a return type ending in Result, any run of its expanded body, and any error that it returns. Then this error has just passed a hook: all that was reported ends with what the flavor reports for an error (C94) at the place of a `?`, `return` or trailing expression of this item, and the returned error is what the hook made of it, or what `?` converts that to. Runs are those in which only `?`, `return`, hooks and the end of a body have a meaning of their own and everything else may give, skip, repeat and reorder what it likes. Excluded are: `?` and `return` on the left of an assignment (which the code does not visit: `*f()? = x` really lets an error escape unseen), values at the end of a body that no hook is put behind (macros in braces and verbatim code), errors given by operator expressions such as `*e`, and errors given by calls of Ok.", "quantifier": "all items with attributes that only bind, all functions in them at any depth, all runs, all errors, all conversions, all ways to show errors", "why_tests_cant": "A test runs one path to one error; that there is no path on which an error escapes without a report is a statement about all control flow, including jumps out of loops and blocks, closures, nested `?` and returns.", "anchors": ["hooq-macros/src/impls/walker/hook_expr.rs", "hooq-macros/src/impls/walker/mod.rs", "hooq-macros/src/impls/flavor/mod.rs:52-71 default_method", "docs/en/hooq-mdbook-en/src/tutorial/conclude.md:12"]}
{"id": "C97", "title": "The reports of an error are its way through the program", "statement": "Take a program all of whose functions are hooked by built-in flavors as in C96, with any calls between them. Whenever a function returns an error, all that was reported before ends with the trace of this error, without anything in between: what was reported where it came from, and then, for each function it passed, from the inside to the outside, the report of a hook on the very call that returned it, perhaps followed by reports of further hooks of the same function. Under `default` the trace consists of lines `[path:line:col] error` with the excerpt, at least one for each function, the first of them with the place of the call, and all show the error as the call returned it.", "quantifier": "all programs of hooked functions, all call graphs including recursion, all runs, all errors and conversions", "why_tests_cant": "The snapshot of the documentation shows one program with two functions; that no function on the way is missing, that the order is right and nothing else is in between cannot be tested for all programs.", "anchors": ["docs/en/hooq-mdbook-en/src/tutorial/conclude.md:12", "docs/en/hooq-mdbook-en/src/index.md:52-59", "hooq-macros/src/impls/walker/mod.rs", "hooq-macros/src/impls/flavor/mod.rs:52-71 default_method"]}
{"id": "C98", "title": "Masking the project root in recorded expansions", "statement": "`mask_project_root` with one mode followed by the other brings every file back to what it was, if the text written by the first (the mask, or the directory of the package) did not occur in the recorded files and does not overlap with itself; for the mask the latter always holds, so masking can be undone in all files in which the mask does not occur. After masking no recorded file contains the directory of the package, if this is an absolute path without `<`. Files that are not directly in the given directory or do not end in `.expanded.rs` are not touched, also when a run stops at an unreadable file; the recordings of the book, in `./src`, are therefore never masked by the calls with `.` in their tests.", "quantifier": "all directories, all file contents, all listings without repetition, both modes", "why_tests_cant": "The tests use it around themselves on one machine with one directory; whether a recording survives on every machine depends on overlaps that no test machine shows (`/a/a` breaks it).", "anchors": ["test-helpers/src/lib.rs:15-36 mask_project_root", "mdbook-source-code/new_project.rs:130-160"]}
{"id": "C99", "title": "A new book project is complete, or it is stuck", "statement": "When the script for new book projects works, the project is what cargo made, with hooq as a dependency and exactly one dependency for tests in the manifest, all else in the manifest kept, and with the test text that the projects of the books have, for the name and the mode; no other file has changed. Where files can be written it works exactly if cargo makes a project whose manifest has a table of dependencies. However it ends, it has touched at most these two files, and the test only after all else worked. But it cannot be repeated: once cargo has made the project, every further run in any mode fails and changes nothing, also when the first run stopped halfway. The path to hooq that it writes is right exactly if the name is a single directory.", "quantifier": "all names, modes, file systems, behaviours of cargo and TOML documents", "why_tests_cant": "Nothing runs this script in the tests; that a failed run cannot be repeated and what it leaves behind depends on when it failed and on all files.", "anchors": ["mdbook-source-code/new_project.rs:29-43 main", "mdbook-source-code/new_project.rs:58-93 edit_cargo_toml", "mdbook-source-code/new_project.rs:95-122 create_tests_dir_for_std_out_err", "mdbook-source-code/new_project.rs:124-166 create_tests_dir_for_expand"]}
{"id": "C100", "title": "One report per function for an error", "statement": "Take a program as in C97, and let no target in it be an operator expression or a `return`: none at the end of a body, before `?`, or behind `return`. Then the trace of an error has for each function that the error passed the report of exactly one hook, the one on the very call that returned the error. Under `default` this is exactly one line for each function, with the place of this call; under `anyhow` and `eyre` exactly one text in front of the error for each function, and nothing is reported. The condition is needed: `return x` at the end of a function without semicolon is hooked twice, and its error is printed twice.", "quantifier": "all programs of hooked functions without such targets, all call graphs including recursion, all runs, all errors and conversions", "why_tests_cant": "A snapshot shows single lines for the functions it contains; that no form of function reports an error twice or passes it on through a second hook cannot be tested for all programs.", "anchors": ["docs/en/hooq-mdbook-en/src/tutorial/conclude.md:12", "hooq-macros/src/impls/walker/mod.rs", "hooq-macros/src/impls/flavor/mod.rs:52-71 default_method"]}
{"id": "C101", "title": "Only errors are reported, and only those that occurred", "statement": "Take a program all of whose functions are hooked by the built-in flavors default, log, tracing, anyhow, eyre or color_eyre, with any attributes that do not set the method and any code. Every error that a function returns was given by some node of the program, passed on through calls and changed only by `?` and by the hooks. Every report is one the code makes itself, or is the report of a hook, with the place of its target, of an error that came up in this way. In particular, if nothing fails, no hook reports anything and no function returns an error; and under `default` each printed line shows an error that occurred, up to the conversions by `?`.", "quantifier": "all programs of hooked functions, all call graphs including recursion, all runs, all errors and conversions", "why_tests_cant": "A test sees the lines of one run; that no run of any program prints a line for a success or an error nobody made cannot be tested.", "anchors": ["docs/en/hooq-mdbook-en/src/index.md:52-59", "hooq-macros/src/impls/flavor/mod.rs:52-71 default_method", "hooq-macros/src/impls/flavor/presets/", "hooq-macros/src/impls/walker/mod.rs"]}
{"id": "C102", "title": "Hooks name only what the project has", "statement": "Under a built-in flavor, where no attribute sets the method or the level, the absolute paths in a hook are exactly these: the items of `std`, `log` or `tracing` that the flavor is for, with the level; the helper macro under the name by which the crate was found; and under `hook`, `::hooq::HooqMeta` and, if there are bindings, `::hooq::BindingPayload` and the items of `std` that `$bindings` uses. Hence all of them exist exactly if the library does, the helper macros can be named (the project knows `hooq` under any name but `hooq_macros`, or only `hooq-macros` under its own name, or is `hooq` itself), and, for `hook`, the project knows `hooq` or `hooq-helpers` as `hooq`. A project that renames `hooq` can use the other built-in flavors, but not `hook`.", "quantifier": "all projects and their dependencies, all items, positions, attributes and bindings", "why_tests_cant": "Every test crate depends on `hooq` or `hooq-macros` under its own name; the paths of a renamed dependency are in no snapshot.", "anchors": ["hooq-macros/src/impls/utils/get_hooq_crate_name.rs:6-32", "hooq-macros/src/impls/method/render/mod.rs:186-211", "hooq-macros/src/impls/method/render/mod.rs:306-316", "hooq-macros/src/impls/flavor/mod.rs:52-71 default_method", "hooq-macros/src/impls/flavor/presets/", "hooq/src/lib.rs:9-16"]}
{"id": "C103", "title": "Methods that take the ? away", "statement": "With `?` as the only target and the method `.unwrap()!` of the recipe, every hook takes its `?` away and is the call of `unwrap`; with the method `match $expr { Ok(val) => val, Err(err) => return Err(From::from(err)), }!` every hook takes its `?` away and is that `match` around the operand. So the expanded item means what the item means wherever the `match` means what the `?` means, and the item with `unwrap` is related to it by every relation that does not tell `unwrap` from `?`. No `?` is left in the output, at any depth, and the calls of its functions no longer depend on how `?` converts errors. Without the feature consume-question the `!` stays in the inserted text, and no item with a `?` to be hooked expands. With the targets left at their default, as the documented recipe with `match` does, ends of functions and values of `return` are replaced by their insides as well.", "quantifier": "all items, all positions, all spans of the method, all compositional semantics, all runs", "why_tests_cant": "The recipes are shown on one function with one `?` each whose end is `Ok(())`, which is left alone; no test compares the behaviour, or has a nested `?`.", "anchors": ["hooq-macros/src/impls/method/mod.rs:31-100 split_tail_exclamation", "hooq-macros/src/impls/walker/mod.rs: walk_expr (Expr::Try)", "hooq-macros/src/impls/walker/hook_expr.rs: hook_expr", "docs/en/hooq-mdbook-en/src/recipe/unwrap.md", "docs/en/hooq-mdbook-en/src/recipe/match.md", "mdbook-source-code/recipe-unwrap/hooq.toml", "mdbook-source-code/recipe-match/hooq.toml"]}
{"id": "C104", "title": "Other types and names than Result, Ok and Err", "statement": "If an item carries tail_expr_idents(T..), ignore_tail_expr_idents(I..) and result_types(R..), in any order and among other attributes, and nothing else in it is about these lists, then they decide everywhere in the item, whatever the flavor says: an enabled trailing expression is hooked exactly when it is a call of a name in T, or stands at the end of a function or closure whose declared return type ends in a name of R and is no call of a name in I; likewise a `return`. Hence, other than the recipe for Option suggests, ignoring the name of a constant such as None has no effect: at the end of a function returning Option, or behind `return`, a plain `None` gets a hook.", "quantifier": "All items, flavors, lists of names and positions in the item.", "why_tests_cant": "The recipe has one item, in which no None stands at the end of a function; the theorem is about all positions of all items.", "anchors": ["/repo/docs/en/hooq-mdbook-en/src/recipe/option.md:1-28", "/repo/hooq-macros/src/impls/walker/mod.rs:44-110", "/repo/hooq-macros/src/impls/inert_attr/context.rs:336-341"]}
{"id": "C105", "title": "Methods that are expressions around the operand never break the expansion", "statement": "If the method in force, wherever something is to be hooked, replaces the operand by an expression in which meta variables stand as arguments, in parentheses, behind `=` or as the body of a closure (`$so_far` after a dot, if the overridden methods are chains of calls), then what stands in place of the operand is again such an expression, in which every variable has been replaced. So if syn parses such expressions, as the grammar says, every item with well-formed attributes expands, also where a cast, an open range or another expression that cannot carry a method call is to be hooked. In particular one attribute such as #[hooq::method(wrapper($expr))] on the item is enough.", "quantifier": "every item, every settings and attribute, every operand, every parser that accepts the expressions of the grammar", "why_tests_cant": "Whether the text in place of an operand parses is only found out by expanding; tests show it for the one wrapper and the operands they contain.", "anchors": ["hooq-macros/src/impls/walker/hook_expr.rs:6-28", "hooq-macros/src/impls/method/render/mod.rs:22-90", "docs/en/hooq-mdbook-en/src/reference/method.md:26-40"]}
{"id": "C106", "title": "Which places are hooked does not depend on the methods", "statement": "Two flavors that agree in hook targets, tail and ignored names, result types and the macro switch put their hooks in exactly the same places of an item, whatever their methods and bindings are; in particular all built-in flavors other than `empty` do. If one flavor has fewer targets, names and types, ignores more names, or does not look into macros, then it has hooks only where the other has some. For hooks of `return` and tail expressions this holds as long as no `?` is taken away, which no method without a `!` at its end does; for hooks of `?` it always holds.", "quantifier": "every item, every two flavors and their settings, every attribute inside the item, every position", "why_tests_cant": "It relates two expansions of the same item under arbitrary flavors; that the text of hooks never feeds back into the decision on others, which look at code already expanded, is not visible in single expansions.", "anchors": ["hooq-macros/src/impls/walker/mod.rs:44-110", "hooq-macros/src/impls/inert_attr/context.rs:286-404", "hooq-macros/src/impls/walker/hook_expr.rs:6-28"]}
{"id": "C107", "title": "Which kinds are hooked does not change the numbers", "statement": "The number that `$count` gives to a hook does not depend on hook targets, methods and bindings of the flavor: two flavors that agree in tail and ignored names, result types and the macro switch number every place that both hook alike, and hooking further kinds keeps every hook with its number. For `?` the macro switch alone has to agree. For `return` and tail expressions it holds as long as no `?` is taken away.", "quantifier": "every item, every two flavors and their settings, every attribute inside the item, every position", "why_tests_cant": "It relates the counters of two whole expansions under arbitrary flavors; a counter that skipped disabled kinds would look right in every single expansion.", "anchors": ["hooq-macros/src/impls/inert_attr/context.rs: Counter", "hooq-macros/src/impls/walker/hook_expr.rs:6-28", "hooq-macros/src/impls/method/render/mod.rs: get_count"]}
{"id": "C108", "title": "Attributes that set methods or bindings change no place and no number of a hook", "statement": "Two items that differ only in attributes that set methods or bindings, or are none of hooq's, and in spans, have their hooks in exactly the same places and with the same numbers, wherever these attributes are. Together with a flavor that hooks no less (C106), hooks only become more. It holds as long as no `?` is taken away, so always without the feature consume-question.", "quantifier": "every two such items, every two flavors, every position", "why_tests_cant": "It relates the expansions of two items with arbitrary attributes at arbitrary depth; the decision on a place goes through a context that every attribute around it may have changed.", "anchors": ["hooq-macros/src/impls/inert_attr/context.rs: HookContext::updated_by_inert_attr", "hooq-macros/src/impls/inert_attr/parse.rs:extract_hooq_info_from_attrs", "hooq-macros/src/impls/walker/mod.rs:44-110"]}
{"id": "C109", "title": "An attribute changes hooks only inside its node", "statement": "Whether there is a hook at a place depends on no attribute but those on the nodes at and above the place. So putting any attributes on a node, or taking them away, adds and removes hooks only inside the node: skip, skip_all, flavors, targets, names, types and the macro switch reach neither the code before the node nor the code behind it. It holds as long as no `?` is taken away, so always without the feature consume-question.", "quantifier": "every two items of the same form, every attributes on them, every position", "why_tests_cant": "It relates the expansions of two items with arbitrary attributes; a context that leaks from one sibling to the next shows only with the right attribute before the right target.", "anchors": ["hooq-macros/src/impls/inert_attr/context.rs:224-314", "hooq-macros/src/impls/inert_attr/mod.rs: handle_inert_attrs", "hooq-macros/src/impls/walker/mod.rs:163-1047"]}
