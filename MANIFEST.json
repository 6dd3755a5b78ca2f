{
 "claims": [
  {
   "property": "C01",
   "status": "proved",
   "theorems": [
    "Verif.Props.Lex.tokenize_total_lossless"
   ],
   "note": "full statement, every input"
  },
  {
   "property": "C02",
   "status": "proved",
   "theorems": [
    "Verif.Props.Lex.token_locations_exact",
    "Verif.Props.Lex.tokens_abut",
    "Verif.Props.Lex.bom_tokens"
   ],
   "note": "with a byte-order mark all locations are relative to the text after it (bom_tokens)"
  },
  {
   "property": "C03",
   "status": "proved",
   "theorems": [
    "Verif.Props.Lex.tokens_nonempty",
    "Verif.Props.Lex.token_indices"
   ],
   "note": ""
  },
  {
   "property": "C04",
   "status": "proved",
   "theorems": [
    "Verif.Props.Lex.token_shape",
    "Verif.Props.Lex.word_need_not_be_identifier"
   ],
   "note": "a word's first character ranges over A-z as written in the lexer, so it can be one of [ \\ ] ^ ` too; word_need_not_be_identifier is the witness"
  },
  {
   "property": "C05",
   "status": "proved",
   "theorems": [
    "Verif.Props.Lex.plain_tokens_hide_nothing",
    "Verif.Props.Lex.multiline_tokens",
    "Verif.Props.Lex.hash_starts_comment",
    "Verif.Props.Lex.sentinel_spans_lines"
   ],
   "note": "token_shape gives the grammar of the tokens that may contain structural characters"
  },
  {
   "property": "C06",
   "status": "proved",
   "theorems": [
    "Verif.Props.Lex.token_isolated"
   ],
   "note": ""
  },
  {
   "property": "C07",
   "status": "partial",
   "theorems": [
    "Verif.Props.Parse.tokens_conserved_partial",
    "Verif.Props.Parse.tokens_in_order_partial",
    "Verif.Props.Parse.text_reproduced_partial",
    "Verif.Props.Parse.bom_ignored",
    "Verif.Props.Parse.glued_switch_drops_token",
    "Verif.Props.Parse.tuple_moves_comments",
    "Verif.Props.ParseDb.tool_text_reproduced_partial"
   ],
   "note": "False of the code as first stated: a tuple element glued to a format switch is dropped (witness glued_switch_drops_token), comments inside tuples move behind the tuple (witness). Proved: permutation and program order for every database when format switches stand apart; exact order and exact text when the commands used have no tuple parser. The byte-order mark is skipped. tool_text_reproduced_partial: exact text with the tool's own command table and any user declarations, unless one of the three commands with tuples occurs."
  },
  {
   "property": "C08",
   "status": "partial",
   "theorems": [
    "Verif.Props.Parse.parse_terminates_partial",
    "Verif.Props.Parse.parse_diverges",
    "Verif.Props.ParseDb.tool_parse_terminates_partial",
    "Verif.Props.ParseDb.tool_parse_diverges"
   ],
   "note": "False of the code: if(a AND#c) never ends for any fuel (parse_diverges). Proved to end within 12*tokens+12 nested calls when only word tokens are spelled AND/OR and dispatchers are flat. tool_*: the same two results for the tool's own command table with any user declarations; the dispatcher condition is discharged there."
  },
  {
   "property": "C09",
   "status": "proved",
   "theorems": [
    "Verif.Props.Parse.flow_control_bracketed",
    "Verif.Props.Parse.tree_well_formed"
   ],
   "note": "An if block may be unclosed at the end of the input (the code accepts it)."
  },
  {
   "property": "C10",
   "status": "proved",
   "theorems": [
    "Verif.Props.Parse.statement_shape",
    "Verif.Props.Parse.tree_well_formed"
   ],
   "note": ""
  },
  {
   "property": "C11",
   "status": "proved",
   "theorems": [
    "Verif.Props.Parse.positional_group"
   ],
   "note": "Parenthesised groups do not count as arguments; with an exact arity only the closing parenthesis stops a group early, as in the code."
  },
  {
   "property": "C12",
   "status": "partial",
   "theorems": [
    "Verif.Props.Layout.format_keeps_program_partial",
    "Verif.Props.Layout.comment_swallows_argument",
    "Verif.Props.Switch.regions_stacked_partial"
   ],
   "note": "End to end from text to text (lexer, parser, layout, writer) for every command database and configuration without tab characters and byte-order mark. Assumes no format switches and a settled tree: no comment that starts with a bracket comment and goes on, no unaligned comments in an argument list, keywords on one line; comment_swallows_argument shows that the property is false of the code without it. Texts with format switches between statements: regions_stacked_partial."
  },
  {
   "property": "C13",
   "status": "partial",
   "theorems": [
    "Verif.Props.Layout.comment_ends_line_partial",
    "Verif.Props.Layout.format_keeps_program_partial",
    "Verif.Props.Layout.comment_swallows_argument",
    "Verif.Props.Layout.comments_merged",
    "Verif.Props.Switch.regions_stacked_partial"
   ],
   "note": "Same assumptions as C12; the two witnesses show that it is false of the code without them. Texts with format switches between statements: regions_stacked_partial."
  },
  {
   "property": "C14",
   "status": "partial",
   "theorems": [
    "Verif.Props.Layout.neighbours_apart_partial",
    "Verif.Props.Layout.format_keeps_program_partial",
    "Verif.Props.Switch.regions_stacked_partial"
   ],
   "note": "Same assumptions as C12. Texts with format switches between statements: regions_stacked_partial."
  },
  {
   "property": "C15",
   "status": "proved",
   "theorems": [
    "Verif.Props.Write.writer_in_place",
    "Verif.Props.Write.writer_raises_iff",
    "Verif.Props.Write.writer_appends"
   ],
   "note": "For every sequence of texts and positions the writer either fails its assertion, exactly when a text would start before the end of the previous one, or its output shows each text in order at exactly its row and column with only line ends and blanks between. Format switches are C18."
  },
  {
   "property": "C16",
   "status": "partial",
   "theorems": [
    "Verif.Props.Width.valid_fits_partial",
    "Verif.Props.Width.unix_fits_partial",
    "Verif.Props.Width.switched_off_too_wide",
    "Verif.Props.Tabs.tabs_fit_partial"
   ],
   "note": "Proved for every plain text and every configuration without tab characters and byte-order mark: a layout reported valid has no line longer than line_width. Missing: texts with format switches (copied parts may be wider: switched_off_too_wide), byte-order marks, unsettled comments and keywords. With tabs (and line feeds): tabs_fit_partial, counting a tab as one character."
  },
  {
   "property": "C17",
   "status": "proved",
   "theorems": [
    "Verif.Props.Write.first_acceptable_pass",
    "Verif.Props.Write.chosen_unique"
   ],
   "note": "An equivalence for every node, position, path and parent pass: a layout is returned iff it is that of the first permitted pass whose result is acceptable (a separate specification), or of the last permitted pass if none is."
  },
  {
   "property": "C18",
   "status": "partial",
   "theorems": [
    "Verif.Props.Switch.region_copied_partial",
    "Verif.Props.Switch.regions_stacked_partial",
    "Verif.Props.Switch.region_after_bom",
    "Verif.Props.Switch.region_two_offs",
    "Verif.Props.Switch.region_unclosed",
    "Verif.Props.Switch.region_from_statement",
    "Verif.Props.Tabs.tabs_change_region"
   ],
   "note": "Proved end to end for every text and configuration (no tab characters, no emitted byte-order mark) where switches are outside statements and every off is followed by an on: each region is copied byte for byte, and everything else is laid out as without switches. The four witnesses show where it is false of the code: after a byte-order mark, two offs in a row, no on (or an on inside a statement), a region that starts inside a statement and ends outside. Missing: regions within one statement, and texts whose comments or keywords in formatted blocks are not settled. With tabs the claim is false: tabs_change_region."
  },
  {
   "property": "C19",
   "status": "proved",
   "theorems": [
    "Verif.Props.Text.normalize_lines",
    "Verif.Props.Text.normalize_idempotent",
    "Verif.Props.Text.normalize_no_cr",
    "Verif.Props.Text.normalize_no_trailing_blank",
    "Verif.Props.Text.normalize_keeps_text"
   ],
   "note": "normalize_line_endings for every text."
  },
  {
   "property": "C20",
   "status": "partial",
   "theorems": [
    "Verif.Props.Text.detect_windows_iff",
    "Verif.Props.Text.detect_tie",
    "Verif.Props.Text.detected_line_end",
    "Verif.Props.Endings.auto_line_ends_partial"
   ],
   "note": "Detection is proved for every text; that every line of the output has the detected end is proved for plain texts (no switches, settled comments, no argument ending in an escaped blank)."
  },
  {
   "property": "C21",
   "status": "proved",
   "theorems": [
    "Verif.Props.Text.tabs_only_change_indentation",
    "Verif.Props.Text.tabs_total",
    "Verif.Props.Text.tabs_errors",
    "Verif.Props.Text.tabs_idempotent"
   ],
   "note": "replace_with_tabs for every text, tab size and policy."
  },
  {
   "property": "C22",
   "status": "proved",
   "theorems": [
    "Verif.Props.ArgSort.sort_groups",
    "Verif.Props.ArgSort.cut_faithful",
    "Verif.Props.ArgSort.sort_perm",
    "Verif.Props.ArgSort.sort_idempotent"
   ],
   "note": "sort_arguments for every child list."
  },
  {
   "property": "C23",
   "status": "proved",
   "theorems": [
    "Verif.Props.Write.case_only",
    "Verif.Props.Write.case_exact",
    "Verif.Props.Layout.case_policies_partial"
   ],
   "note": "case_only and case_exact hold for every word, node type and configuration. case_policies_partial says it of the whole output, for texts without byte-order mark, format switches and unsettled comments, with tabs off. Letter case is that of the Py model (one character to one character)."
  },
  {
   "property": "C24",
   "status": "proved",
   "theorems": [
    "Verif.Props.Markup.reflow_keeps_words",
    "Verif.Props.Markup.item_keeps_words",
    "Verif.Props.Markup.items_keep_words",
    "Verif.Props.Markup.comment_keeps_words",
    "Verif.Props.Markup.bullet_width",
    "Verif.Props.Markup.enum_too_wide"
   ],
   "note": "Words and width of reflowed paragraphs; words of every kind of markup item and whole comments; enumerations exceed the width by their digits (witness)."
  },
  {
   "property": "C25",
   "status": "partial",
   "theorems": [
    "Verif.Props.Markup.reflow_idempotent",
    "Verif.Props.Markup.reflow_converges_partial",
    "Verif.Props.Markup.reflow_ends",
    "Verif.Props.Markup.reflow_fails"
   ],
   "note": "Idempotence holds always. Convergence within the eight rounds is false in general (reflow_fails) and proved for at most six surplus blanks; with enough rounds it always holds (reflow_ends)."
  },
  {
   "property": "C26",
   "status": "partial",
   "theorems": [
    "Verif.Props.Markup.reflow_no_directive_partial",
    "Verif.Props.Markup.reflow_invents_directive"
   ],
   "note": "False of the code (witness). Proved if the directive words do not occur in the comment; fences and explicit trailing comments not covered."
  },
  {
   "property": "C27",
   "status": "proved",
   "theorems": [
    "Verif.Props.Markup.markup_keeps_lines",
    "Verif.Props.Markup.markup_keeps_words",
    "Verif.Props.Markup.markup_merges_blank",
    "Verif.Props.Markup.defaultFence_ink",
    "Verif.Props.Markup.enum_loses_number"
   ],
   "note": "Every line is kept up to blanks and list markers, in order; enum_loses_number shows that the code takes a number in a continuation line for a marker."
  },
  {
   "property": "C28",
   "status": "partial",
   "theorems": [
    "Verif.Props.Blocks.blocks_stacked_partial",
    "Verif.Props.Blocks.blank_line_in_statement",
    "Verif.Props.Switch.regions_stacked_partial"
   ],
   "note": "Proved for texts without byte-order mark and format switches whose comments are settled, with blanks for indentation. The output is the blocks and blank lines of the parse tree's outline, blank lines exactly where the input has them and never two in a row. False inside statements: blank_line_in_statement shows two cases where a blank line is inserted. Texts with format switches between statements: regions_stacked_partial."
  },
  {
   "property": "C29",
   "status": "proved",
   "theorems": [
    "Verif.Props.Write.ends_with_line_end",
    "Verif.Props.Write.lineEnd_cases"
   ],
   "note": "For every text and configuration, with tabs, byte-order mark and format switches."
  },
  {
   "property": "C30",
   "status": "proved",
   "theorems": [
    "Verif.Props.Config.merge_path",
    "Verif.Props.Config.merge_keys",
    "Verif.Props.Config.merge_wf"
   ],
   "note": "map_merge for all nested dictionaries with unique keys, at every key path."
  },
  {
   "property": "C31",
   "status": "proved",
   "theorems": [
    "Verif.Props.Config.load_order",
    "Verif.Props.Config.last_file_wins"
   ],
   "note": "Every queue and include structure; reading a file is a parameter."
  },
  {
   "property": "C32",
   "status": "proved",
   "theorems": [
    "Verif.Props.Config.load_terminates",
    "Verif.Props.Config.load_diverges",
    "Verif.Props.Config.self_include_diverges"
   ],
   "note": "Termination for ranked includes, divergence for any cycle."
  },
  {
   "property": "C33",
   "status": "proved",
   "theorems": [
    "Verif.Props.Config.nearest_config",
    "Verif.Props.Config.nearest_config_of_directory"
   ],
   "note": "Absolute path of a file or directory; existence, isdir and realpath are parameters."
  },
  {
   "property": "C34",
   "status": "proved",
   "theorems": [
    "Verif.Props.Config.resolve_spec",
    "Verif.Props.Config.resolve_case",
    "Verif.Props.Config.resolve_other_commands"
   ],
   "note": ""
  },
  {
   "property": "C35",
   "status": "partial",
   "theorems": [
    "Verif.Props.Main.cli_first_file_partial",
    "Verif.Props.Main.cli_dropped_for_later_files",
    "Verif.Props.Main.cli_second_file_witness"
   ],
   "note": "False of the code for every input after the first (shown in general and by a witness); proved for the first input."
  },
  {
   "property": "C36",
   "status": "proved",
   "theorems": [
    "Verif.Props.Main.in_place_crash_safe",
    "Verif.Props.Main.temp_file_destroyed",
    "Verif.Props.Main.move_fallback_torn"
   ],
   "note": "Every prefix of the system calls of every in-place run; assumes os.rename is atomic and succeeds. The exceptions (temporary names, failing rename) are shown necessary."
  },
  {
   "property": "C37",
   "status": "proved",
   "theorems": [
    "Verif.Props.Main.check_never_writes",
    "Verif.Props.Main.in_place_write_means_change",
    "Verif.Props.Main.in_place_result"
   ],
   "note": ""
  },
  {
   "property": "C38",
   "status": "proved",
   "theorems": [
    "Verif.Props.Main.exit_zero_iff",
    "Verif.Props.Main.format_error_continues",
    "Verif.Props.Main.format_error_iff",
    "Verif.Props.Main.format_error_not_written",
    "Verif.Props.Main.argsOk_iff",
    "Verif.Props.Main.inconsistent_noop"
   ],
   "note": "Files that raise anything but FormatError stop the run, as in the code."
  },
  {
   "property": "C39",
   "status": "proved",
   "theorems": [
    "Verif.Props.Main.disabled_noop"
   ],
   "note": ""
  },
  {
   "property": "C40",
   "status": "partial",
   "theorems": [
    "Verif.Lint.reported_exact",
    "Verif.Lint.reported_iff",
    "Verif.Lint.not_overreaching",
    "Verif.Lint.disabled_hidden",
    "Verif.Lint.run_total",
    "Verif.Lint.nested_pragma_lost"
   ],
   "note": "Proved for every history in line order; outside line order (nested pragmas) the code loses suppressions, nested_pragma_lost. not_overreaching and disabled_hidden hold for every history."
  },
  {
   "property": "C41",
   "status": "proved",
   "theorems": [
    "Verif.Lint.report_sorted",
    "Verif.Lint.report_stable",
    "Verif.Lint.report_complete"
   ],
   "note": "Sortedness and stability for every context; completeness for histories in line order."
  },
  {
   "property": "C42",
   "status": "proved",
   "theorems": [
    "Verif.Lint.lint_exit_zero_iff",
    "Verif.Lint.lint_run",
    "Verif.Lint.stdin_decorated_fails",
    "Verif.Lint.auto_fails"
   ],
   "note": "Distinct paths. Standard input with decorations and line_ending auto always end in status 2."
  },
  {
   "property": "C43",
   "status": "proved",
   "theorems": [
    "Verif.Lint.length_exact",
    "Verif.Lint.trailing_exact",
    "Verif.Lint.final_newline_exact",
    "Verif.Lint.indent_spaces_exact",
    "Verif.Lint.checkBasics_nodup"
   ],
   "note": ""
  },
  {
   "property": "C44",
   "status": "proved",
   "theorems": [
    "Verif.Lint.lint_run",
    "Verif.Lint.repeated_path_duplicates"
   ],
   "note": "Distinct paths; a path given twice is counted cumulatively, repeated_path_duplicates."
  },
  {
   "property": "C45",
   "status": "partial",
   "theorems": [
    "Verif.Props.Render.html_shows_tokens_partial",
    "Verif.Props.Render.html_shows_file_partial",
    "Verif.Props.Render.html_not_escaped",
    "Verif.Props.Render.classes_tell_kinds"
   ],
   "note": "Proved for every tree whose tokens contain no <; false without it (html_not_escaped). The file-level theorem adds the conditions of C07."
  },
  {
   "property": "C46",
   "status": "proved",
   "theorems": [
    "Verif.Props.Config.parseBool_iff"
   ],
   "note": ""
  },
  {
   "property": "C47",
   "status": "proved",
   "theorems": [
    "Verif.Props.Config.clone_same_values",
    "Verif.Props.Config.dump_round_trip",
    "Verif.Props.Config.dump_exact",
    "Verif.Props.Config.configuration_distinct"
   ],
   "note": "Every two-level configuration class with distinct names; the tool's own class is shown to be one."
  },
  {
   "property": "C48",
   "status": "proved",
   "theorems": [
    "Verif.Props.Config.unknown_keys_ignored",
    "Verif.Props.Config.unknown_keys_in_section",
    "Verif.Props.Config.configuration_unambiguous"
   ],
   "note": ""
  },
  {
   "property": "C49",
   "status": "proved",
   "theorems": [
    "Verif.Props.Config.sections_spec",
    "Verif.Props.Config.set_exact"
   ],
   "note": "Every tree of assignments and with-section blocks."
  },
  {
   "property": "C50",
   "status": "proved",
   "theorems": [
    "Verif.Props.Parse.lookup_ignores_case",
    "Verif.Props.Parse.statement_ignores_case"
   ],
   "note": ""
  },
  {
   "property": "C51",
   "status": "partial",
   "theorems": [
    "Verif.Lint.ending_exact_partial",
    "Verif.Lint.windows_always_flagged"
   ],
   "note": "Exact on terminated lines; false on the piece after the last newline when line_ending is windows."
  },
  {
   "property": "C52",
   "status": "proved",
   "theorems": [
    "Verif.Props.Markup.comment_errors",
    "Verif.Props.Markup.nested_list_fails"
   ],
   "note": "All comments and configurations; nested_list_fails shows that the assertion can be reached."
  },
  {
   "property": "C53",
   "status": "partial",
   "theorems": [
    "Verif.Props.Blocks.blocks_stacked_partial",
    "Verif.Props.Switch.regions_stacked_partial"
   ],
   "note": "Proved for texts without byte-order mark and format switches whose comments are settled, with blanks (not tabs) for indentation. Texts with format switches between statements: regions_stacked_partial."
  },
  {
   "property": "C54",
   "status": "proved",
   "theorems": [
    "Verif.Props.MarkupLists.lists_keep_nesting",
    "Verif.Props.MarkupLists.enum_digits",
    "Verif.Props.MarkupLists.enum_aligned",
    "Verif.Props.MarkupLists.ten_entries"
   ],
   "note": "The nesting is specified by depthIn over the indentations of earlier lists. ceil(log10(n)) is modelled as the smallest d with n <= 10^d, without floating-point error."
  },
  {
   "property": "C55",
   "status": "proved",
   "theorems": [
    "Verif.Props.ParseDb.declared_command",
    "Verif.Props.ParseDb.other_commands",
    "Verif.Props.ParseDb.declaration_parts",
    "Verif.Props.ParseDb.declaration_pargs",
    "Verif.Props.ParseDb.if_conditional",
    "Verif.Props.ParseDb.dict_pargs_loses_nargs",
    "Verif.Props.ParseDb.declaration_mistakes"
   ],
   "note": "declared_command: the parser of a declared command; other_commands: nothing else changes; declaration_parts/declaration_pargs: what a declaration means. Findings: if_conditional (declarations of if/elseif/while are ignored), dict_pargs_loses_nargs."
  },
  {
   "property": "C56",
   "status": "proved",
   "theorems": [
    "Verif.Props.ParseDb.override_keyword",
    "Verif.Props.ParseDb.override_parg",
    "Verif.Props.ParseDb.override_unknown",
    "Verif.Props.ParseDb.override_builtin",
    "Verif.Props.ParseDb.override_index"
   ],
   "note": "Values of scalar attributes; replacing whole lists is outside the model. Findings: the library's own commands cannot be overridden (override_builtin); the first index past the end escapes as IndexError (override_index)."
  },
  {
   "property": "C57",
   "status": "partial",
   "theorems": [
    "Verif.Props.Relex.reads_back_partial",
    "Verif.Props.Relex.quote_appears",
    "Verif.Props.Relex.opener_appears",
    "Verif.Props.Relex.path_split",
    "Verif.Props.Relex.switch_appears",
    "Verif.Props.Tabs.tabs_read_back_partial",
    "Verif.Props.Tabs.tabs_change_argument"
   ],
   "note": "Proved for texts without format switches or byte-order mark, with settled comments (Plain) and portable tokens (Steady), line feeds and no tabs. quote_appears and opener_appears show texts outside these hypotheses for which the claim is false of the code. With tabs see C74."
  },
  {
   "property": "C58",
   "status": "partial",
   "theorems": [
    "Verif.Props.Endings.output_lines_partial",
    "Verif.Props.Endings.escaped_blank_ends_line",
    "Verif.Props.Tabs.tabs_output_lines_partial"
   ],
   "note": "Proved for plain texts (no switches, settled comments) in which no unquoted argument ends in an escaped blank; without that condition it is false (witness). With tabs: tabs_output_lines_partial (line feeds)."
  },
  {
   "property": "C59",
   "status": "partial",
   "theorems": [
    "Verif.Props.Same.reading_ignores_blanks_and_case_partial",
    "Verif.Props.Same.foreach_depends_on_a_blank"
   ],
   "note": "For all commands of the tool and any user commands. False of a foreach with a single argument (foreach_depends_on_a_blank). Missing: texts with comments or format switches, texts where something other than a word is spelled AND or OR (the parser may not end on those), byte-order marks."
  },
  {
   "property": "C60",
   "status": "partial",
   "theorems": [
    "Verif.Props.Again.structure_kept_partial"
   ],
   "note": "For the tool's commands and any user commands. Hypotheses: no switches; comments only between commands, no two comments of lines directly below one another, and each formatted to the same lines again (NotesLast); portable tokens (C57); each unquoted argument on one line and not spelled like another kind of argument in another letter case; configured command spellings differ in letter case only; every foreach has two arguments. Missing: comments inside commands and trailing comments, switches, byte-order marks, tabs, autosort."
  },
  {
   "property": "C61",
   "status": "partial",
   "theorems": [
    "Verif.Props.Again.formatting_twice_partial",
    "Verif.Markup.prose_lasts",
    "Verif.Markup.literal_lasts",
    "Verif.Props.Again.blank_start_shrinks",
    "Verif.Props.Again.eleven_items_merge",
    "Verif.Props.Again.aligned_comments_merge"
   ],
   "note": "Under the hypotheses of C60, for texts without blank lines at the start, and with command case and spelling options that ignore letter case, and no per-node options for blank lines or bodies. The hypothesis on comments is met by comments of plain sentences (prose_lasts) and, without markup, by all comments that are no directives (literal_lasts). False of texts with blank lines at the start (blank_start_shrinks), of lists in comments (eleven_items_merge) and of comments below one another in different columns (aligned_comments_merge). Missing: comments inside commands and trailing comments, switches, byte-order marks, tabs, autosort."
  },
  {
   "property": "C62",
   "status": "partial",
   "theorems": [
    "Verif.Props.Groups.words_grouped_partial",
    "Verif.Props.Groups.declared_grouped_partial",
    "Verif.Props.Groups.tool_described",
    "Verif.Props.Groups.statement_words"
   ],
   "note": "Comments elsewhere in the file do not matter. Missing: comments inside the command, nested parentheses, keywords with keywords of their own, optional arguments (\"?\"), several positional groups, and the commands that are read word by word (most of these are covered by C94)."
  },
  {
   "property": "C63",
   "status": "partial",
   "theorems": [
    "Verif.Props.Groups.forms_grouped_partial"
   ],
   "note": "Missing: comments and nested parentheses inside the command, and the forms marked none in the table (file(WRITE/APPEND/GENERATE/COPY/INSTALL), install(TARGETS/DIRECTORY), foreach with IN or a plain list, libraries and executables with sources; C94 covers most of these)."
  },
  {
   "property": "C64",
   "status": "proved",
   "theorems": [
    "Verif.Props.LintTree.stray_breaks",
    "Verif.Props.LintTree.stray_breaks_sound",
    "Verif.Props.LintTree.commands_are_the_program",
    "Verif.Props.LintTree.reported_lints",
    "Verif.Props.LintTree.suppressions_restored",
    "Verif.Props.LintTree.break_in_function"
   ],
   "note": "The commands of a text are the statements of its parse tree; commands_are_the_program says that they make up the program text. What the parser records is a parameter that uses only its own codes."
  },
  {
   "property": "C65",
   "status": "proved",
   "theorems": [
    "Verif.Props.LintTree.dead_ends",
    "Verif.Props.LintTree.dead_ends_sound"
   ],
   "note": "As C64."
  },
  {
   "property": "C66",
   "status": "proved",
   "theorems": [
    "Verif.Props.LintTree.too_many",
    "Verif.Props.LintTree.too_many_sound"
   ],
   "note": "As C64."
  },
  {
   "property": "C67",
   "status": "proved",
   "theorems": [
    "Verif.Props.LintParams.bad_parameters",
    "Verif.Props.LintParams.bad_parameters_sound"
   ],
   "note": "As C64. The theorem is about the four pairs of code and specification in paramChecks."
  },
  {
   "property": "C68",
   "status": "proved",
   "theorems": [
    "Verif.Props.Local.files_compose",
    "Verif.Props.Local.later_commands_do_not_matter",
    "Verif.Props.Local.next_command_matters",
    "Verif.Props.Local.open_block_matters",
    "Verif.Props.Local.comments_join"
   ],
   "note": "The three hypotheses are each shown to be necessary. Stated for token lists: the lexer itself does not compose (an unclosed bracket argument in the first text)."
  },
  {
   "property": "C69",
   "status": "partial",
   "theorems": [
    "Verif.Props.LintOutput.output_passes_line_checks_partial",
    "Verif.Props.LintOutput.carriage_return_counts",
    "Verif.Props.Tabs.tabs_pass_line_checks_partial"
   ],
   "note": "Under the hypotheses of C16 and C58, for line feeds, and for outputs without tabs and rare Unicode blanks (which can come from multi-line arguments). With tabs in both tools: tabs_pass_line_checks_partial."
  },
  {
   "property": "C70",
   "status": "proved",
   "theorems": [
    "Verif.Props.Gen.generated_names"
   ],
   "note": "All definitions anywhere in the file; for the parser's default context, which is what the program uses."
  },
  {
   "property": "C71",
   "status": "proved",
   "theorems": [
    "Verif.Props.Gen.generated_entry",
    "Verif.Props.GenOrder.generated_first",
    "Verif.Props.Gen.generated_loads",
    "Verif.Props.Gen.nested_function",
    "Verif.Props.Gen.parse_argv",
    "Verif.Props.GenOrder.sample_table"
   ],
   "note": "generated_entry: numbers of arguments, and that some call inside gives the names; generated_first: which call, with the values of variables; generated_loads: the table as additional_commands."
  },
  {
   "property": "C72",
   "status": "partial",
   "theorems": [
    "Verif.Props.Gen.generation_ends_partial",
    "Verif.Props.Gen.generation_hangs"
   ],
   "note": "False in general: generation_hangs is a file for which the program does not end. Proved when all references in the arguments of set are well formed."
  },
  {
   "property": "C73",
   "status": "proved",
   "theorems": [
    "Verif.Props.Tabs.tabs_come_last",
    "Verif.Props.Tabs.tabs_line_by_line",
    "Verif.Props.Tabs.tabs_never_fail"
   ],
   "note": "For every text and configuration, including texts with format switches."
  },
  {
   "property": "C74",
   "status": "partial",
   "theorems": [
    "Verif.Props.Tabs.tabs_read_back_partial",
    "Verif.Props.Tabs.tabs_change_argument",
    "Verif.Props.Tabs.tabs_change_region"
   ],
   "note": "Under the hypotheses of C57 and for texts in which no line within an argument or bracket comment starts with a blank; without that it is false of the code (witnesses)."
  },
  {
   "property": "C75",
   "status": "proved",
   "theorems": [
    "Verif.Props.LintForms.unknown_words",
    "Verif.Props.LintForms.unknown_words_sound",
    "Verif.Props.LintForms.computed_words",
    "Verif.Props.LintForms.computed_words_sound"
   ],
   "note": "exact for texts without byte-order mark, glued switches and pragmas; an upper bound for all texts; any command table"
  },
  {
   "property": "C76",
   "status": "proved",
   "theorems": [
    "Verif.Props.LintForms.surplus_arguments",
    "Verif.Props.LintForms.surplus_arguments_sound"
   ],
   "note": "without byte-order mark and format switches; the first argument is reported, further records can follow"
  },
  {
   "property": "C77",
   "status": "partial",
   "theorems": [
    "Verif.Props.LintForms.missing_keyword_partial",
    "Verif.Props.LintForms.missing_keyword_sound",
    "Verif.Props.LintRequired.missing_keyword_exact_partial"
   ],
   "note": "the report is exactly what is missing in files without pragmas whose custom commands and targets have arguments without comments and inner parentheses; comments elsewhere do not matter. In other files, a keyword that is nowhere is reported and only required keywords of these commands are. Missing: a keyword in its place is not reported if the command itself has comments or inner parentheses"
  },
  {
   "property": "C78",
   "status": "partial",
   "theorems": [
    "Verif.Props.LintForms.build_command_crashes",
    "Verif.Props.LintForms.crash_on_next",
    "Verif.Props.LintForms.crash_on_stray",
    "Verif.Props.LintTree.crash_on_empty",
    "Verif.Props.LintTree.crash_on_list",
    "Verif.Props.LintTree.crash_on_half_reference"
   ],
   "note": "the claim is false of the code; proved: a class of files for which it always fails, and witnesses. C81 has the files for which it always finishes. Missing: the exact border between the two"
  },
  {
   "property": "C79",
   "status": "partial",
   "theorems": [
    "Verif.Props.LintNames.bad_names_partial",
    "Verif.Props.LintNames.bad_names_sound",
    "Verif.Props.LintNames.bare_plain",
    "Verif.Props.LintNames.bare_pieces",
    "Verif.Props.LintNames.bare_done",
    "Verif.Props.LintNames.nested_lint",
    "Verif.Props.LintNames.nested_spec"
   ],
   "note": "missing: set and list commands with parentheses inside; there the claim as written is false (witness nested_lint)"
  },
  {
   "property": "C80",
   "status": "partial",
   "theorems": [
    "Verif.Props.LintVarNames.misspelt_names_partial",
    "Verif.Props.LintVarNames.misspelt_names_sound",
    "Verif.Props.LintVarNames.builtin_not_misspelt",
    "Verif.Props.LintVarNames.misspelt_is_builtin",
    "Verif.Props.LintVarNames.only_the_beginning"
   ],
   "note": "missing: set and list commands with parentheses inside"
  },
  {
   "property": "C81",
   "status": "partial",
   "theorems": [
    "Verif.Props.LintDone.lint_finishes_partial",
    "Verif.Lint.text_spaced",
    "Verif.Props.LintDone.failing_fail"
   ],
   "note": "A sound file that parses is linted to the end. Missing: a loop over ${ARGN} with its variable alone as a condition is excluded also where the check does not look (outside of definitions, or with cmake_parse_arguments); build_command is excluded although only its finding cannot be printed; parentheses inside set and list."
  },
  {
   "property": "C82",
   "status": "proved",
   "theorems": [
    "Verif.Props.LintSpacing.spacing",
    "Verif.Props.LintSpacing.spacing_sound",
    "Verif.Props.LintSpacing.well_spaced"
   ],
   "note": "As C64: exact without pragmas, and with pragmas nothing else is reported."
  },
  {
   "property": "C83",
   "status": "proved",
   "theorems": [
    "Verif.Props.Ctest.no_test_is_reported",
    "Verif.Props.Ctest.finishes_iff",
    "Verif.Props.Ctest.default_prints_nothing",
    "Verif.Props.Ctest.fails_on_commands",
    "Verif.Props.Ctest.one_test_fails"
   ],
   "note": "A defect of the tool, proved for every input; the wanted property (each add_test is reported) is refuted by one_test_fails. The bound on the number of directories is irrelevant: two rounds are enough, and with fewer the model fails."
  },
  {
   "property": "C84",
   "status": "proved",
   "theorems": [
    "Verif.Props.Arrange.options_obeyed",
    "Verif.Props.Arrange.layout_parts",
    "Verif.Props.Arrange.paren_spacing",
    "Verif.Props.Arrange.dangling_parens",
    "Verif.Props.Arrange.closing_paren"
   ],
   "note": "Stated with the positions of the laid out tree; the writer puts every text at exactly those positions (C15). The length that min_prefix_chars is compared with is that of the name as written in the source."
  },
  {
   "property": "C85",
   "status": "partial",
   "theorems": [
    "Verif.Props.Arrange.options_obeyed",
    "Verif.Props.Arrange.long_lists_vertical",
    "Verif.Props.Arrange.many_groups_vertical",
    "Verif.Props.Arrange.always_wrapped_partial",
    "Verif.Props.Arrange.always_wrap_in_block"
   ],
   "note": "All limits are proved. always_wrap is compared with a path, so a listed command name has no effect inside if() and other blocks (always_wrap_in_block); proved for commands outside blocks, and for every part whose path is listed."
  },
  {
   "property": "C86",
   "status": "proved",
   "theorems": [
    "Verif.Props.LintDoc.docstrings",
    "Verif.Props.LintDoc.docstrings_sound",
    "Verif.Props.LintDoc.every_definition",
    "Verif.Props.LintDoc.blank_line_before",
    "Verif.Props.LintDoc.bracket_comment_is_empty"
   ],
   "note": "As C64: exact without pragmas, and with pragmas nothing else is reported. A docstring in brackets counts as one that says nothing, as in the code."
  },
  {
   "property": "C87",
   "status": "proved",
   "theorems": [
    "Verif.Props.Dump.repr_inj",
    "Verif.Props.Dump.drawing_tells_tree",
    "Verif.Props.Dump.parse_dump_tells",
    "Verif.Props.Dump.lex_dump_tells"
   ],
   "note": "The set of printable characters and the class names of nodes (words) are parameters of repr and of the drawing."
  },
  {
   "property": "C88",
   "status": "partial",
   "theorems": [
    "Verif.Props.Annotate.others_untouched_partial",
    "Verif.Props.Annotate.document_written_partial",
    "Verif.Props.Annotate.documents_printed",
    "Verif.Props.Annotate.output_shows_input_partial",
    "Verif.Props.Annotate.same_file_lost",
    "Verif.Props.Annotate.failure_empties",
    "Verif.Props.Annotate.config_option_fails"
   ],
   "note": "False of the code where the output is the input, after an error, and for -c; these are proved as they are. The html shows the text only if it contains no '<' (C45)."
  },
  {
   "property": "C89",
   "status": "partial",
   "theorems": [
    "Verif.Props.DumpConfig.tool_python_dump_partial",
    "Verif.Props.DumpConfig.tool_dict_dump_partial",
    "Verif.Props.DumpConfig.python_dump_reads",
    "Verif.Props.DumpConfig.python_dump_same",
    "Verif.Props.DumpConfig.dict_dump_same",
    "Verif.Props.DumpConfig.reads_unique",
    "Verif.Props.DumpConfig.builtin_lost",
    "Verif.Props.DumpOptions.dumped_option"
   ],
   "note": "Proved for every configuration in which the user gives no per_command options for commands with built-in ones; for those the claim is false of the code (builtin_lost). Reading of single values by Python is an assumption (Readable)."
  },
  {
   "property": "C90",
   "status": "partial",
   "theorems": [
    "Verif.Props.LintPragma.pragma_exact_partial",
    "Verif.Props.LintPragma.stray_breaks_hidden",
    "Verif.Props.LintPragma.dead_ends_hidden",
    "Verif.Props.LintPragma.too_many_hidden",
    "Verif.Props.LintPragma.mem_pragmas",
    "Verif.Props.LintPragma.last_line_not_hidden"
   ],
   "note": "Proved for files whose pragmas are in comments directly in the file. The records on the line of the last token are not hidden (finding); for the codes that are checked for a body as a whole nothing is shown about that last line. Pragmas inside of commands and blocks: see C40 and nested_pragma_lost."
  },
  {
   "property": "C91",
   "status": "proved",
   "theorems": [
    "Verif.Props.Options.effective_option",
    "Verif.Props.Options.all_options",
    "Verif.Props.DumpOptions.dumped_option"
   ],
   "note": "For the first input of a run; for later inputs the command line is lost, see C35. What a merged set of files holds is C30 and C31."
  },
  {
   "property": "C92",
   "status": "proved",
   "theorems": [
    "Verif.Props.LintIndent.indentation",
    "Verif.Props.LintIndent.indentation_sound",
    "Verif.Props.LintIndent.pieces_are_the_text",
    "Verif.Props.LintIndent.flush_left_unseen",
    "Verif.Props.LintIndent.blank_line_seen",
    "Verif.Props.LintIndent.aligned_comment_seen"
   ],
   "note": "Exact for texts without pragmas; with pragmas, nothing else is reported."
  },
  {
   "property": "C93",
   "status": "proved",
   "theorems": [
    "Verif.Props.LintRefs.half_references",
    "Verif.Props.LintRefs.late_references",
    "Verif.Props.LintRefs.openRec_iff",
    "Verif.Props.LintRefs.lateLoc_iff",
    "Verif.Props.LintRefs.rest_reduced",
    "Verif.Props.LintRefs.demo_lint"
   ],
   "note": "Exact for texts without pragmas. The two iff theorems say what is reported in terms of the small specification (Reduced, First). The message of the second kind shows the text of an earlier word (demo_lint)."
  },
  {
   "property": "C94",
   "status": "partial",
   "theorems": [
    "Verif.Props.WordGroups.words_grouped_partial"
   ],
   "note": "Missing: comments and nested parentheses inside the command, install(TARGETS), and a library with a single argument (which may be read by what follows the command, see add_library_crash)."
  },
  {
   "property": "C95",
   "status": "proved",
   "theorems": [
    "Verif.Props.GenMain.declarations_merged",
    "Verif.Props.GenMain.all_names",
    "Verif.Props.GenMain.others_untouched",
    "Verif.Props.GenMain.nothing_written",
    "Verif.Props.GenMain.first_undecodable",
    "Verif.Props.GenMain.undecodable_passed_over"
   ],
   "note": "Finding: a file that cannot be decoded, unless it is the first, is passed over without an error status (undecodable_passed_over)."
  },
  {
   "property": "C96",
   "status": "proved",
   "theorems": [
    "Verif.Props.LintHand.parsed_by_hand",
    "Verif.Props.LintHand.parsed_by_hand_number",
    "Verif.Props.LintHand.parsed_by_hand_sound",
    "Verif.Props.LintHand.lone_variable_crashes",
    "Verif.Props.LintHand.quoted_variable_missed"
   ],
   "note": "Which of several such loops is reported is left open (the code takes the first in breadth-first order). A condition that is the loop variable alone crashes the linter (lone_variable_crashes); a quoted reference to the variable is not counted (quoted_variable_missed)."
  },
  {
   "property": "C97",
   "status": "proved",
   "theorems": [
    "Verif.Props.LintKeywords.repeated_keywords",
    "Verif.Props.LintKeywords.again_iff"
   ],
   "note": "Which words are keywords, and to which list they belong, is what the parser found (C62 and C94 say what that is). again_iff unfolds the list of repetitions."
  },
  {
   "property": "C98",
   "status": "proved",
   "theorems": [
    "Verif.Props.LintShort.short_groups",
    "Verif.Props.LintShort.short_groups_only",
    "Verif.Props.LintShort.missing_words",
    "Verif.Props.LintShort.missing_words_named",
    "Verif.Props.LintShort.missing_words_set",
    "Verif.Props.LintShort.demo_short"
   ],
   "note": "The groups, and the number of words declared for each, are what the parser found (C62, C94). demo_short has a command without words that is not reported although two are required. missing_words lists all reports that name nothing, in every file; missing_words_named says where the others come from, and missing_words_set which keyword groups of a set have one. On list() the linter fails (crash_on_list), so that case of lacksWord never shows."
  },
  {
   "property": "C99",
   "status": "proved",
   "theorems": [
    "Verif.Props.LintMistakes.mistakes_sound",
    "Verif.Props.LintMistakes.mistakes_reported"
   ],
   "note": "mistakes_sound covers pragmas anywhere; mistakes_reported those at top level in files without pragmas elsewhere, as the statement says. The column is left open because the code's column is wrong for later words (demo_lint). mistakes_sound asks that the records of the parser carry the parser's codes only (ParserLint), which Verif.Props.LintForms.parser_lint proves of the modelled parsers."
  },
  {
   "property": "C100",
   "status": "proved",
   "theorems": [
    "Verif.Props.LintCodes.reported_shown",
    "Verif.Props.LintCodes.unused_codes"
   ],
   "note": "The number of arguments of each message is the table fieldsOf, copied from lintdb.py; a file for which a message cannot be formatted is not linted to the end (build_command_crashes of C78 is one)."
  }
 ]
}
