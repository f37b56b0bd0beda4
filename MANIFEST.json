{"claims": [
 {"property": "C01", "status": "proved", "theorems": ["Hooq.C01_question_placement"], "note": "visited = reached"},
 {"property": "C02", "status": "proved", "theorems": ["Hooq.C02_return_placement"], "note": ""},
 {"property": "C03", "status": "proved", "theorems": ["Hooq.C03_tail_placement"], "note": ""},
 {"property": "C04", "status": "partial", "theorems": ["Hooq.C04_code_kept", "Hooq.C04_exact_partial", "Hooq.C04_attributes", "Hooq.C04_attr_lost"], "note": "C04_code_kept holds for every item, but also erases attributes of `?` expressions and inner attributes of files in macro bodies. C04_exact_partial keeps those and excludes items that have them. C04_attr_lost shows the code really drops them: the claim as written is false in these two cases. The exact law is C60."},
 {"property": "C05", "status": "proved", "theorems": ["Hooq.C05_question_kept_at", "Hooq.C05_question_kept"], "note": "C05_question_kept is for stores built from presets and an accepted hooq.toml without consume-question"},
 {"property": "C06", "status": "partial", "theorems": ["Hooq.C06_skip_all_partial", "Hooq.C06_skip_all_output_partial", "Hooq.C06_reenabled"], "note": "False in general: a skip attribute nested in the skip_all subtree re-enables its sub-scopes (C06_reenabled); proved when no skip lies between. The exact law for all nestings is C56."},
 {"property": "C07", "status": "partial", "theorems": ["Hooq.C07_skip_same_scope", "Hooq.C07_skip_nested_scope_partial", "Hooq.C07_skip_output", "Hooq.C07_absent_question_partial", "Hooq.C07_absent_return_partial", "Hooq.C07_absent_tail_partial", "Hooq.C06_reenabled"], "note": "First half: C07_skip_output, on the expansion. Second half: C07_absent_*, comparing the expansions with and without the attribute, when no skip_all lies further out; under an outer skip_all it is false (C06_reenabled). The exact law for all nestings is C56."},
 {"property": "C08", "status": "proved", "theorems": ["Hooq.C08_lexical_context", "Hooq.C08_lexical_hooks"], "note": ""},
 {"property": "C09", "status": "proved", "theorems": ["Hooq.C09_macro_untouched", "Hooq.C09_macro_off"], "note": ""},
 {"property": "C10", "status": "partial", "theorems": ["Hooq.C10_code_kept", "Hooq.C10_code_exact_partial", "Hooq.C10_same_rule_question", "Hooq.C10_same_rule_return", "Hooq.C10_same_rule_tail"], "note": "Same rules and separators proved in full; code kept up to the two kinds of lost attributes of C04 (inner attributes of a file body, attributes of a consumed `?`). That the body parses as code is an input of the model here. The exact law is C60."},
 {"property": "C100", "status": "proved", "theorems": ["Hooq.C100_once", "Hooq.C100_printed", "Hooq.C100_context", "Hooq.C100_return_twice", "Hooq.C100_any_flavor"], "note": "As C97, exactly one report per function where no target is an operator expression or `return`; C100_return_twice shows that the condition is needed. The trace is what was reported last; reports of errors that were handled before are not in it. C100_any_flavor is for arbitrary flavors and methods, with what the hooks do in place of the texts of the built-in flavors."},
 {"property": "C101", "status": "proved", "theorems": ["Hooq.C101_stems", "Hooq.C101_silent", "Hooq.C101_lines", "Hooq.C101_any_flavor"], "note": "For runs as in C96; needs none of the conditions on targets of C96 and C97. The flavor `hook` is left out, since it hands every value to the user's function. C101_any_flavor is for arbitrary flavors and methods, with what the hooks do in place of the texts of the built-in flavors."},
 {"property": "C102", "status": "proved", "theorems": ["Hooq.C102_names", "Hooq.C102_helpers", "Hooq.C102_record", "Hooq.C102_resolves", "Hooq.C102_renamed"], "note": "`Project` (Spec/Names.lean) says which package a project knows under a name; `Found` says that proc_macro_crate tells the truth. What the packages of the repository export is in Model/Exports.lean. Absolute paths only; relative names in hooks are the subject of C81 and C94."},
 {"property": "C103", "status": "proved", "theorems": ["Hooq.C103_unwrap_text", "Hooq.C103_match_text", "Hooq.C103_unwrap", "Hooq.C103_match", "Hooq.C103_none_left", "Hooq.C103_no_conversion", "Hooq.C103_feature", "Hooq.C103_match_tail", "Hooq.reading_meets"], "note": "C103_match_tail: what the documented recipe with `match`, which does not set the targets, does at the end of a function. C103_feature assumes of syn that no expression is followed by `!`. reading_meets: a computable reader meets the assumption. The theorems about the recipe with `match` speak of expansions that work: `match $expr {` cannot be read if the operand shows a struct literal outside of all brackets, as in `S { x }.f()?`, and then the macro panics; the model leaves this to replaceShape, which sees only the end of the operand (see DESIGN.md)."},
 {"property": "C104", "status": "proved", "theorems": ["Hooq.C104_tail", "Hooq.C104_return", "Hooq.C104_constant_tail", "Hooq.C104_constant_return"], "note": "The recipe says that ignoring None avoids hooks; C104_constant_* show that it does not, since only calls are compared with the ignored names."},
 {"property": "C105", "status": "proved", "theorems": ["Hooq.C105_form", "Hooq.C105_expands", "Hooq.C105_on_item", "Hooq.reading_exprs"], "note": "WrapStack and ReadsExprs are in Spec/Wrap.lean, over the grammar of Spec/Chain.lean; ReadsExprs is the assumption about syn. reading_exprs: a computable reader meets it. The witness is the documented wrapper around `return x as T`, which fails under the default method (C18_cast_panics)."},
 {"property": "C106", "status": "proved", "theorems": ["Hooq.C106_question", "Hooq.C106_more", "Hooq.C106_same", "Hooq.C106_builtin", "Hooq.C106_stay", "Hooq.C106_feature", "Hooq.C106_without"], "note": "Both expansions succeed. C106_more and those after it assume that no `?` is taken away (C106_stay gives this from the methods in force): a consumed `?` whose method keeps the operand shows what it stood on, so that `return Ok(x)?` can become a call of `Ok`."},
 {"property": "C107", "status": "proved", "theorems": ["Hooq.C107_question", "Hooq.C107_numbers", "Hooq.C107_more", "Hooq.C107_without"], "note": "No hypothesis on methods, bindings or hook targets, except that C107_numbers and C107_more assume that no `?` is taken away; C107_without derives this from the feature being off, C107_question does not need it. An example shows why: with `$expr!`, `return Ok(x)?` loses its hook and the next `return` takes its number."},
 {"property": "C108", "status": "proved", "theorems": ["Hooq.C108_more", "Hooq.C108_same", "Hooq.C108_numbers", "Hooq.C108_without"], "note": "Items are compared by RTree.Akin: the same form, and at every node the same attributes among those that decide (skip, skip_all, flavor, hook_targets, tail_expr_idents, ignore_tail_expr_idents, result_types, hook_in_macros). Both expansions succeed. C108_without derives from the feature being off that no `?` is taken away."},
 {"property": "C109", "status": "proved", "theorems": ["Hooq.C109_above", "Hooq.C109_inside", "Hooq.C109_without"], "note": "Both expansions succeed. The numbers of hooks behind the node may change, since what is skipped takes no number (C11)."},
 {"property": "C11", "status": "proved", "theorems": ["Hooq.C11_numbers", "Hooq.C11_hook_is_numbered", "Hooq.C11_unique"], "note": "Targets are listed by an independent post-order enumeration of positions (postorder, shown duplicate free, complete, and children first by nodup_postorder, mem_postorder, postorder_child)."},
 {"property": "C12", "status": "proved", "theorems": ["Hooq.C12_ordinal", "Hooq.C12_count_in_hooks"], "note": ""},
 {"property": "C13", "status": "partial", "theorems": ["Hooq.C13_attributes_partial"], "note": "attributes in positions the walker does not visit stay; a consumed ? drops its own attributes The exact law is C60."},
 {"property": "C14", "status": "partial", "theorems": ["Hooq.C14_root", "Hooq.C14_unchanged_partial", "Hooq.C14_only_attribute_errors"], "note": "Node by node the output is the input without inert attributes, without hooks; all code text is kept (cleanItem true). Missing: inner attributes of a file in a macro body, which are lost if an attribute switches on hooks in macros (C04_attr_lost). The exact law is C60."},
 {"property": "C15", "status": "proved", "theorems": ["Hooq.C15_source_and_expr"], "note": ""},
 {"property": "C16", "status": "proved", "theorems": ["Hooq.C16_fn_name"], "note": ""},
 {"property": "C17", "status": "partial", "theorems": ["Hooq.C17_return_type_partial", "Hooq.C17_tail_type_partial", "Hooq.C17_async"], "note": "Proved for fns and closures; async blocks are judged by the enclosing fn (C17_async). The exact law is C72."},
 {"property": "C18", "status": "partial", "theorems": ["Hooq.C18_failure_cause", "Hooq.C18_attributes_ok", "Hooq.C18_malformed_fails", "Hooq.C18_question_ok", "Hooq.C18_return_ok", "Hooq.C18_tail_ok", "Hooq.C18_bad_template_fails", "Hooq.C18_always_expands_partial", "Hooq.C18_cast_panics"], "note": "Causes of failure are exact, both directions proved. The always-expands half excludes items in which a hooked operand cannot carry a method call (a cast or an open range), for which the code panics (C18_cast_panics). The exact law is C61."},
 {"property": "C19", "status": "proved", "theorems": ["Hooq.C19_at_most_one"], "note": ""},
 {"property": "C20", "status": "partial", "theorems": ["Hooq.C20_nested_hooq_partial", "Hooq.C20_not_twice"], "note": "The nested attribute is kept and does not influence the outer expansion. Not every target is hooked once more by the second expansion, and some are hooked only by it (C20_not_twice); the exact law is C67."},
 {"property": "C21", "status": "proved", "theorems": ["Hooq.C21_verbatim_expansion", "Hooq.C21_verbatim"], "note": ""},
 {"property": "C22", "status": "proved", "theorems": ["Hooq.C22_builtin", "Hooq.C22_builtin_total", "Hooq.C22_binding", "Hooq.C22_positionwise", "Hooq.C22_hooks"], "note": ""},
 {"property": "C23", "status": "proved", "theorems": ["Hooq.C23_so_far", "Hooq.C23_so_far_fails"], "note": ""},
 {"property": "C24", "status": "partial", "theorems": ["Hooq.C24_malformed_partial", "Hooq.C24_reported_partial", "Hooq.C24_vanishes"], "note": "A `$` at the end of a template or group vanishes without an error (C24_vanishes). The exact law is C57."},
 {"property": "C25", "status": "proved", "theorems": ["Hooq.C25_order_independent", "Hooq.C25_bindings"], "note": ""},
 {"property": "C26", "status": "proved", "theorems": ["Hooq.C26_location"], "note": "The tail anchor is the first source token unless a replacing hook sits on it. If attributes that stay stand in front of a tail expression, the first token is their `#`; in the model that is the span given to the leftmost sub-expression (see DESIGN.md, Spans)."},
 {"property": "C27", "status": "partial", "theorems": ["Hooq.C27_spans_partial"], "note": "the leading dot of an inserted method keeps its own span; the exact law for all tokens is C70"},
 {"property": "C28", "status": "proved", "theorems": ["Hooq.C28_method_syntax"], "note": ""},
 {"property": "C29", "status": "proved", "theorems": ["Hooq.C29_union", "Hooq.C29_accepted", "Hooq.C29_first_unknown", "Hooq.C29_set"], "note": ""},
 {"property": "C30", "status": "proved", "theorems": ["Hooq.C30_last_wins", "Hooq.C30_ignore_accumulate", "Hooq.C30_ignore_replace", "Hooq.C30_bang", "Hooq.C30_commute", "Hooq.C30_bang_clears"], "note": "Commutation is stated at the annotated node and its subtree; the text of an enclosing target's $source contains inner attributes as written, so it may show their order. Finding (C30_bang_clears): the reference says that `tail_expr_idents(\"!g\")` behaves like `ignore_tail_expr_idents(\"g\")`, but it also clears the tail identifiers in force."},
 {"property": "C31", "status": "proved", "theorems": ["Hooq.C31_name", "Hooq.C31_unknown_rejected", "Hooq.C31_accepted_iff", "Hooq.C31_foreign_ignored"], "note": "`::hooq::x = v` and unknown `hooq::x = v` are bindings by design of the parser. C31_foreign_ignored compares items with the same spans: an attribute that stays in front of a tail expression is its first token, so that writing it there moves `$line` and `$column` of the hook (see DESIGN.md, Spans)."},
 {"property": "C32", "status": "proved", "theorems": ["Hooq.C32_flavor"], "note": ""},
 {"property": "C33", "status": "partial", "theorems": ["Hooq.C33_string_rejected_partial", "Hooq.C33_path_rejected_partial", "Hooq.C33_same_flavor_partial", "Hooq.C33_display_partial", "Hooq.C33_leading_colon", "Hooq.C33_display_colon"], "note": "All spellings of a component list give the same path; empty components are rejected. Missing: a leading `::` on a path spelling is accepted (C33_leading_colon), and names with a single `:` are displayed ambiguously (C33_display_colon). The exact law is C65."},
 {"property": "C34", "status": "proved", "theorems": ["Hooq.C34_lookup", "Hooq.C34_names"], "note": ""},
 {"property": "C35", "status": "partial", "theorems": ["Hooq.C35_fields_partial", "Hooq.C35_cases_partial", "Hooq.C35_trait_uses"], "note": "Every field but trait_uses is taken from the table or else from the base. trait_uses is always overwritten, even by a table that does not mention it (C35_trait_uses)."},
 {"property": "C36", "status": "proved", "theorems": ["Hooq.C36_order"], "note": ""},
 {"property": "C37", "status": "proved", "theorems": ["Hooq.C37_rejected", "Hooq.C37_preset"], "note": ""},
 {"property": "C38", "status": "proved", "theorems": ["Hooq.C38_unmentioned"], "note": "A header-only parent table (as in `[anyhow.x]`) counts as a mention of the parent."},
 {"property": "C39", "status": "partial", "theorems": ["Hooq.C39_no_panic", "Hooq.C39_progress", "Hooq.C39_bounded", "Hooq.C39_own_config_partial", "Hooq.C39_cache", "Hooq.C39_no_reload", "Hooq.C39_mixup"], "note": "No panic, progress: all histories. Own configuration: histories in which CARGO_MANIFEST_DIR changes only while no request runs; C39_mixup shows the claim false otherwise (load reads the variable three times). The path of the helper macros in the presets is that of the first request of the process (C53). The law for all histories is C66."},
 {"property": "C40", "status": "proved", "theorems": ["Hooq.C40_broken", "Hooq.C40_missing", "Hooq.C40_cached_usable"], "note": "C40_broken and C40_missing are about a file that stays broken or absent, a variable that changes only between requests, any number of interleaved requests for any projects"},
 {"property": "C41", "status": "proved", "theorems": ["Hooq.C41_selected", "Hooq.C41_uses", "Hooq.C41_accepted", "Hooq.C41_malformed"], "note": ""},
 {"property": "C42", "status": "partial", "theorems": ["Hooq.C42_lines_partial", "Hooq.C42_single_line_partial", "Hooq.C42_short", "Hooq.C42_idempotent", "Hooq.C42_default", "Hooq.C42_tiny"], "note": "The code truncates each line of a literal by itself, so the law holds per line and, for one-line literals, for the whole; idempotence and keeping short literals hold for all limits. For the limits 0 and 1 the claim is false: a longer line becomes `..` (C42_tiny). The exact law is C62."},
 {"property": "C43", "status": "partial", "theorems": ["Hooq.C43_tokens_partial", "Hooq.C43_respelled"], "note": "Number, order and places of tokens are kept, other tokens are unchanged, short literals keep their value. The claim itself is false: a short literal such as r\"a\" is spelled anew (C43_respelled). The exact law is C62."},
 {"property": "C44", "status": "partial", "theorems": ["Hooq.C44_excerpt_partial", "Hooq.C44_full", "Hooq.C44_one", "Hooq.C44_zero"], "note": "The law holds for n >= 2. For n = 1 the code shows the last line only, without marker (C44_one); n = 0 is an error (C44_zero). The exact law is C63."},
 {"property": "C45", "status": "partial", "theorems": ["Hooq.C45_labels_partial", "Hooq.C45_excerpt_partial", "Hooq.C45_width", "Hooq.C45_drift"], "note": "Proved for expressions whose tokens contain no line breaks. After a token with a line break the numbers are wrong (C45_drift). The exact law is C64."},
 {"property": "C46", "status": "partial", "theorems": ["Hooq.C46_tokens", "Hooq.C46_layout_partial"], "note": "Order and added white space: all token trees. Line offsets (and columns): monotone spans and tokens without line breaks; a token with a line break moves what follows it (C45_drift). The exact law is C64."},
 {"property": "C47", "status": "proved", "theorems": ["Hooq.C47_one_line", "Hooq.C47_content", "Hooq.C47_lines"], "note": "C47_one_line holds even for tokens with line breaks."},
 {"property": "C48", "status": "proved", "theorems": ["Hooq.C48_options", "Hooq.C48_only", "Hooq.C48_order", "Hooq.C48_override", "Hooq.C48_defaults", "Hooq.C48_settings", "Hooq.C48_max_len"], "note": "All written forms of options, also when other macros have put groups without delimiters around parts of them. Reading literals and the expression itself is syn's job and a parameter. C48_max_len: the option that the doc comment of truncate_lit_str! names is rejected."},
 {"property": "C49", "status": "proved", "theorems": ["Hooq.C49_get_binding", "Hooq.C49_unbound", "Hooq.C49_other_type", "Hooq.C49_hook", "Hooq.C49_fields"], "note": "C49_hook ties it to the bindings in force at the target. Evaluation of the bound expressions is a parameter; they are evaluated with the variable `expr` of the expansion in scope (C81)."},
 {"property": "C50", "status": "partial", "theorems": ["Hooq.C50_whole_iff", "Hooq.C50_lands", "Hooq.C50_reading", "Hooq.C50_rejected", "Hooq.C50_question_operand", "Hooq.C50_classification", "Hooq.C50_ends_kept", "Hooq.C50_question_whole", "Hooq.C50_value_partial", "Hooq.C50_operator_tail", "Hooq.C50_operator_return", "Hooq.C50_grouping", "Hooq.C50_strengths", "Hooq.C50_missing"], "note": "For `?` operands the hook always applies to the whole operand. For tails and return values it does exactly when the expression is not an operator/prefix/closure expression; C50_operator_tail and C50_operator_return show the claim as stated fails there (method lands on the last operand). Parser: syn's precedence climbing over abstract operators, simplifications in Model/Prec.lean."},
 {"property": "C51", "status": "proved", "theorems": ["Hooq.C51_presets_expand"], "note": ""},
 {"property": "C52", "status": "proved", "theorems": ["Hooq.C52_only_method", "Hooq.C52_unbound", "Hooq.C52_no_incomplete_hook", "Hooq.C52_reported"], "note": ""},
 {"property": "C53", "status": "proved", "theorems": ["Hooq.C53_helper_once", "Hooq.C53_helper_path", "Hooq.C53_wrong_project"], "note": "C53_wrong_project shows the consequence: a project that renames hooq gets presets naming the crate as the first project did."},
 {"property": "C54", "status": "proved", "theorems": ["Hooq.C54_piece", "Hooq.C54_fuel", "Hooq.C54_read", "Hooq.C54_cover", "Hooq.C54_separated", "Hooq.C54_file", "Hooq.C54_stuck", "Hooq.C54_opaque", "Hooq.C54_walk"], "note": "The syn parsers for files, items, expressions and statements are parameters; C54_read assumes that they read at least one token when they succeed, C54_cover that printing gives back what was read. Consequence shown as an example: a typed `let` that is not last leaves the whole body untouched, because its `;` belongs to it and no separator follows."},
 {"property": "C55", "status": "proved", "theorems": ["Hooq.C55_strings", "Hooq.C55_bool", "Hooq.C55_bangs"], "note": "syn's LitStr/LitBool parsing is modelled on tokens; string literals carry their value."},
 {"property": "C56", "status": "proved", "theorems": ["Hooq.C56_question", "Hooq.C56_return", "Hooq.C56_tail"], "note": "States what holds for all nestings, including those in which C06 and C07 fail (C06_reenabled)."},
 {"property": "C57", "status": "proved", "theorems": ["Hooq.C57_expands_iff", "Hooq.C57_trailing", "Hooq.C57_hooks"], "note": "States what holds, including the trailing `$` for which C24 fails."},
 {"property": "C58", "status": "proved", "theorems": ["Hooq.C58_known", "Hooq.C58_settings", "Hooq.C58_question", "Hooq.C58_return", "Hooq.C58_tail", "Hooq.C58_macros", "Hooq.C58_text", "Hooq.C58_uses"], "note": "The table is Spec/Presets.lean. Builtin allows a hooq.toml that leaves the selected flavor alone."},
 {"property": "C59", "status": "proved", "theorems": ["Hooq.C59_accepted", "Hooq.C59_misspelt", "Hooq.C59_tables", "Hooq.C59_fields", "Hooq.C59_flavors", "Hooq.C59_no_others"], "note": "Documents after reading by the toml crate; dates are left out. At the top level a setting name is a flavor name."},
 {"property": "C60", "status": "proved", "theorems": ["Hooq.C60_effect", "Hooq.C60_foreign", "Hooq.C60_inert"], "note": "Exact companion of C04, C10, C13 and C14."},
 {"property": "C61", "status": "proved", "theorems": ["Hooq.C61_expands_iff", "Hooq.C61_plain_expands_iff"], "note": "Exact companion of C18. `Blocked` is stated on the source tree, before the walk."},
 {"property": "C62", "status": "proved", "theorems": ["Hooq.C62_value", "Hooq.C62_length", "Hooq.C62_tokens"], "note": "Exact companion of C42 and C43."},
 {"property": "C63", "status": "proved", "theorems": ["Hooq.C63_excerpt"], "note": "Exact companion of C44."},
 {"property": "C64", "status": "proved", "theorems": ["Hooq.C64_text", "Hooq.C64_row", "Hooq.C64_line", "Hooq.C64_numbers", "Hooq.C64_shown", "Hooq.C64_excerpt"], "note": "Exact companion of C45 and C46. The positions of tokens are monotone (they come from one source text)."},
 {"property": "C65", "status": "proved", "theorems": ["Hooq.C65_string", "Hooq.C65_path", "Hooq.C65_display"], "note": "Exact companion of C33."},
 {"property": "C66", "status": "proved", "theorems": ["Hooq.C66_answer", "Hooq.C66_error", "Hooq.C66_cache"], "note": "Exact companion of C39, without its hypothesis that the variable is calm."},
 {"property": "C67", "status": "proved", "theorems": ["Hooq.C67_question", "Hooq.C67_return", "Hooq.C67_tail"], "note": "How the printed output is parsed again is the definition `reread` in Spec/Reread.lean (hooks that insert a method; see DESIGN.md)."},
 {"property": "C68", "status": "proved", "theorems": ["Hooq.C68_same_code", "Hooq.C68_alone", "Hooq.C68_module", "Hooq.reading_meets"], "note": "Hypothesis CountBlind: whether emitted tokens parse does not depend on the text inside a string literal (true of syn). reading_meets: a computable reader meets the assumption."},
 {"property": "C69", "status": "proved", "theorems": ["Hooq.C69_simulation", "Hooq.C69_same"], "note": "The semantics sees all code except inert attributes, attributes on `?` expressions and inner attributes of files in macro bodies (which C60 says may be lost). The `use` items in front are left out. A consumed `?` applies to its whole operand (C50_question_whole)."},
 {"property": "C70", "status": "proved", "theorems": ["Hooq.C70_spans", "Hooq.C70_written"], "note": "Exact companion of C27. Spans inside spliced code (`$expr`, `$source`, values of bindings, `$hooq_meta`) are not modelled: a splice is one token of the model."},
 {"property": "C71", "status": "proved", "theorems": ["Hooq.C71_first_error", "Hooq.C71_attributes", "Hooq.C71_root"], "note": "StopsAt says where the walk stops: everything reached that comes before is processed, the attributes of enclosing nodes are in order, and the error is that of the first malformed attribute of the node or, once its parts are processed, that of its hook. C71_attributes and C71_root are equivalences. The hypothesis that binding names of the root settings are distinct holds for all settings read from a flavor map with distinct keys. What messages say and where errors of templates point is C73; for attributes and arguments see C87 and C91."},
 {"property": "C72", "status": "proved", "theorems": ["Hooq.C72_return", "Hooq.C72_tail"], "note": "The exact law behind C17, in both directions and with the case outside of any function."},
 {"property": "C73", "status": "proved", "theorems": ["Hooq.C73_points_at", "Hooq.C73_offers", "Hooq.C73_offered_usable", "Hooq.C73_flavors", "Hooq.C73_root_help", "Hooq.C73_flavor_usable"], "note": "HasLine says what a line of a text is. Names with line breaks are left out (OneLine). Examples beside the theorems: flavors are listed in the order of the hash map, so the same configuration does not always give the same message; a flavor named by a quoted key with a `.` in it is offered but cannot be named."},
 {"property": "C74", "status": "proved", "theorems": ["Hooq.C74_code", "Hooq.C74_fits", "Hooq.C74_builtin", "Hooq.C74_uses_fixed", "Hooq.C74_failure"], "note": "Entry point lib.rs modelled in Model/Entry. Finding: #[hooq(anyhow)] on a method inside an impl emits `use ... as _;` into the impl body, which does not compile (example beside C74_builtin)."},
 {"property": "C75", "status": "proved", "theorems": ["Hooq.C75_accepted", "Hooq.C75_reported", "Hooq.C75_flavors", "Hooq.C75_inherits"], "note": "The exact law beside C35. Finding: because a new sub-flavor starts from a clone of its parent, `[log.fatal]` also creates `log::fatal::warn` and the like (C75_inherits)."},
 {"property": "C76", "status": "proved", "theorems": ["Hooq.C50_whole_iff", "Hooq.C50_reading", "Hooq.C50_rejected", "Hooq.C50_classification", "Hooq.C50_ends_kept", "Hooq.C50_question_whole", "Hooq.C61_expands_iff"], "note": "The exact law beside C50. Method texts are assumed to end like closed expressions (`Tidy`); when the expansion fails is stated for methods that expand and re-parse where they are used (AllInOrder)."},
 {"property": "C77", "status": "partial", "theorems": ["Hooq.C77_lines", "Hooq.C77_offered_partial", "Hooq.C77_unquoted", "Hooq.C77_accepted"], "note": "Violated as stated, in both directions. Three lines show identifiers without quotes (`tail_expr_idents(Err)`, `ignore_tail_expr_idents(Ok)`, `result_types(XxxResult)`); written so they are always an error (C77_unquoted). Quoted strings for these three, `var` for `binding`, and a binding path with a leading `::` or generic arguments are accepted and not shown (NotShown in C77_accepted). All other lines are exact. C77_lines assumes an environment with some readable binding and some named flavor, so that those lines have an instance."},
 {"property": "C78", "status": "proved", "theorems": ["Hooq.C78_accepted", "Hooq.C78_unique", "Hooq.C78_expansion", "Hooq.C78_keyword"], "note": "Reading a value behind `=` is a parameter of which only the treatment of string literals is assumed (ReadsStrings); the grammar of paths and metas is that of syn 2.0.117, with `::` as two tokens and with groups without delimiters, which other macros put around their arguments. Finding: a flavor of hooq.toml named like a keyword (`[try]`) is offered in messages but can only be given as `flavor = \"try\"` (C78_keyword)."},
 {"property": "C79", "status": "proved", "theorems": ["Hooq.C79_one", "Hooq.C79_accepted", "Hooq.C79_unique"], "note": "Reading a value behind `=` is an arbitrary function; the grammar of paths and metas is that of syn 2.0.117, with `::` as two tokens and with groups without delimiters, which other macros put around their arguments. Finding: with a leading `::` the settings lose their meaning: `#[::hooq::method = x]` is accepted and binds the name `method`, `#[::hooq::skip]` is an error."},
 {"property": "C80", "status": "proved", "theorems": ["Hooq.C80_within", "Hooq.C80_first", "Hooq.C80_later"], "note": "Finding: the reference says `$count` is the number of the target within the function; that holds only for functions with no target of the kind before them in the expansion. Under `#[hooq]` on a module or impl block the numbers go on from function to function."},
 {"property": "C81", "status": "proved", "theorems": ["Hooq.C81_bindings", "Hooq.C81_meta", "Hooq.C81_level", "Hooq.C81_hook", "Hooq.C81_none", "Hooq.C81_value", "Hooq.C81_captured"], "note": "Finding: a binding such as `#[hooq::x = expr]` silently takes the String made by the expansion instead of the user's variable `expr`. C81_level, C81_hook and C81_none assume that the name of the helpers is a path and that no attribute replaces the method."},
 {"property": "C82", "status": "proved", "theorems": ["Hooq.C82_named", "Hooq.C82_selected", "Hooq.C82_path", "Hooq.C82_configured"], "note": "Finding: hooq.toml accepts quoted keys that contain a separator; such a flavor is offered in the error text but cannot be selected. Companion of C65 and C75."},
 {"property": "C83", "status": "proved", "theorems": ["Hooq.C83_spelled", "Hooq.C83_calls", "Hooq.C83_simulation", "Hooq.C83_looks", "Hooq.C83_empty"], "note": "Builds on C58 (text of the hooks) and C69 (hooks that change nothing). Says nothing on whether the output compiles: `inspect_err` does not exist on Option."},
 {"property": "C84", "status": "proved", "theorems": ["Hooq.C84_check", "Hooq.C84_sync", "Hooq.C84_runs", "Hooq.C84_settled"], "note": "Writing files is assumed not to fail. A failed run may leave changes behind: hooq/Cargo.toml is written before the steps that ask crates.io and call cargo sort (example in Props/Sync.lean)."},
 {"property": "C85", "status": "partial", "theorems": ["Hooq.C85_books_partial", "Hooq.C85_links", "Hooq.C85_runs", "Hooq.C85_misplaced", "Hooq.C85_latest"], "note": "False for the place: the script edits site-url in memory and never writes book.toml, so that after every successful run the latest book is the same in both places (C85_misplaced). The rest is proved for all lists of versions. For the constants of the script, `latest` is the newest version built (C85_latest)."},
 {"property": "C86", "status": "proved", "theorems": ["Hooq.C86_form", "Hooq.C86_works", "Hooq.C86_expands_iff", "Hooq.C86_presets", "Hooq.C86_builtin_expands_iff", "Hooq.C86_empty_expands", "Hooq.reading_meets"], "note": "`Form` in Spec/Chain.lean is the part of Rust's expression grammar, used for method texts and for the output; ReadsChains is the assumption about syn. The witnesses use a parser that accepts chains of calls and nothing else. reading_meets: a computable reader meets the assumption."},
 {"property": "C87", "status": "proved", "theorems": ["Hooq.C87_place", "Hooq.C87_inside", "Hooq.C87_macro", "Hooq.C87_node"], "note": "Assumes of syn's expression parser only that its own positions lie in the value (ErrReader.Sound). For a value that cannot be read the position is the one it gives. A single `:` in the name of a binding is reported as such."},
 {"property": "C88", "status": "proved", "theorems": ["Hooq.C88_on", "Hooq.C88_table", "Hooq.C88_features", "Hooq.C88_additive", "Hooq.C88_consume", "Hooq.C88_selected", "Hooq.C88_own_table", "Hooq.C88_bang"], "note": "Features of hooq/Cargo.toml and their effect on presets and methods. C88_on, C88_table: which are on. C88_features: the law for results of any kind; C88_additive and C88_selected: successful expansions are kept. C88_consume: consume-question alone. C88_own_table and C88_bang show that the two exceptions are needed."},
 {"property": "C89", "status": "proved", "theorems": ["Hooq.C89_uses", "Hooq.C89_edit", "Hooq.C89_edit_ok", "Hooq.C89_order", "Hooq.C89_parent", "Hooq.C89_broken"], "note": "C89_uses: two environments that differ only in the loaded flavors and agree on the flavors used give the same outcome. C89_edit, C89_edit_ok: two accepted files. C89_order: two orders of the same file. C89_parent shows that the tables of the parents matter, C89_broken that a mistake in an unused table breaks every expansion."},
 {"property": "C90", "status": "proved", "theorems": ["Hooq.C90_bound", "Hooq.C90_linear", "Hooq.C90_presets", "Hooq.C90_square", "Hooq.C90_double"], "note": "The size of a node without its parts is an arbitrary function of its kind and position. C90_presets needs that no attribute sets the method or the log level. C90_square and C90_double give programs for every k. Not modelled: sizes of signatures, types and patterns apart from their node."},
 {"property": "C91", "status": "proved", "theorems": ["Hooq.C91_place", "Hooq.C91_agrees", "Hooq.C91_inside", "Hooq.C91_flavor", "Hooq.C91_syntax"], "note": "Only the beginning of the marked text is modelled. Assumed of syn: where errors in values and in the paths of trait_use lie (ArgReader.Sound). The text contains no empty identifier, which no token stream does. C91_agrees ties the errors with places to the outcome of the expansion."},
 {"property": "C92", "status": "proved", "theorems": ["Hooq.C92_exact", "Hooq.C92_unique", "Hooq.C92_results", "Hooq.C92_fails", "Hooq.C92_same", "Hooq.C92_malformed", "Hooq.C92_inside"], "note": "C92_exact: the error and its place are exactly those of the specification OptShown. Reading an expression, and where an error in it lies, is a parameter. C92_malformed assumes that syn rejects what begins with @ at that token."},
 {"property": "C93", "status": "proved", "theorems": ["Hooq.C93_bindings", "Hooq.C93_meta", "Hooq.C93_get_binding"], "note": "The meaning of the tokens is the small part of Rust in Spec/RunCode.lean, which is proved unambiguous (Computes.unique). The user's expressions are evaluated by an arbitrary function; code that panics or returns early is not modelled."},
 {"property": "C94", "status": "proved", "theorems": ["Hooq.C94_reports", "Hooq.C94_hook"], "note": "The meaning of the Rust constructs that the methods use (closures, let, format strings, inspect_err, with_context, wrap_err_with, eprintln!, log!, event!) is stated in Spec/RunHook.lean on the tokens; that a token list can be read in only one way is proved (Does.unique). What an error looks like, what the helper macros make of the source and what the libraries make of a text are parameters."},
 {"property": "C95", "status": "proved", "theorems": ["Hooq.C95_looks", "Hooq.C95_wraps", "Hooq.C95_same", "Hooq.C95_same_context"], "note": "What the tokens do is Does of Spec/RunHook.lean; the relation's indifference to such hooks is a hypothesis of C95_same, stated about hooks with that behaviour only."},
 {"property": "C96", "status": "proved", "theorems": ["Hooq.C96_last_hook", "Hooq.C96_printed", "Hooq.C96_any_flavor", "Hooq.C96_left_escapes"], "note": "Runs are described in Spec/Run.lean, with more runs than Rust has. C96_printed spells out the line that the default flavor prints. C96_any_flavor is for arbitrary flavors and methods that keep an Ok and give an error for an error. C96_left_escapes is the run of `*w? = k; Ok(k)` in which the error leaves with no report, which is why NoneLeft is assumed."},
 {"property": "C97", "status": "proved", "theorems": ["Hooq.C97_trace", "Hooq.C97_printed", "Hooq.C97_context", "Hooq.C97_any_flavor"], "note": "Programs and traces are described in Spec/Trace.lean on top of Spec/Run.lean. C97_trace is for all of default, log, tracing, anyhow, eyre and color_eyre, also mixed; for the last three what hooks do is to put a text in front of the error, and C97_context says what the error is then. C97_any_flavor is for arbitrary flavors and methods, with what the hooks do in place of the texts of the built-in flavors."},
 {"property": "C98", "status": "proved", "theorems": ["Hooq.C98_restored", "Hooq.C98_mask_restored", "Hooq.C98_masked", "Hooq.C98_untouched", "Hooq.C98_book_tests"], "note": "What the glob library lists is a parameter; C98_untouched assumes that it lists only paths that match its pattern. An example shows that with the directory `/a/a` a recording comes back changed."},
 {"property": "C99", "status": "proved", "theorems": ["Hooq.C99_test", "Hooq.C99_made", "Hooq.C99_works", "Hooq.C99_touches", "Hooq.C99_again", "Hooq.C99_path", "Hooq.C99_format"], "note": "The expected texts in Spec/NewProject.lean are copied from projects of the books, not from the script; 42 of the 53 recorded tests are exactly what the model gives for their names, the others were edited later. Sound (cargo refuses an existing project, makes a manifest, and files do not disappear) is only needed for C99_again."}
]}
