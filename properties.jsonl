{"id": "C01", "title": "Lexing is total and lossless", "statement": "tokenize(text) never raises, and concatenating the spellings of the returned tokens, in order, gives back exactly the text that was passed in (a leading byte-order mark is the spelling of its own token).", "quantifier": "every input string", "why_tests_cant": "the claim ranges over every string; the hand-written regular expressions overlap (quotes, brackets, escapes, catch-all) and any gap or overlap between them loses text on some input no test has", "anchors": ["cmakelang/lex/__init__.py:tokenize"]}
{"id": "C02", "title": "Token locations are exact", "statement": "For every token, its recorded begin location is the true (line, column, utf-8 byte offset) of its first character in the text and its end location that of the position after its last character; consecutive tokens abut.", "quantifier": "every input string (BOM-free for offsets; with a BOM every location is relative to the text after the mark) and every token position in it", "why_tests_cant": "locations are computed incrementally; an error appears only after particular mixtures of multi-line tokens, non-ASCII characters and CR/LF", "anchors": ["cmakelang/lex/__init__.py:tokenize", "cmakelang/lex/__init__.py:Token", "cmakelang/lex/__init__.py:SourceLocation"]}
{"id": "C03", "title": "Tokens are non-empty and indexed consecutively", "statement": "No token of tokenize(text) other than the byte-order mark is empty, and the i-th token carries index i.", "quantifier": "every input string and every position in the token list", "why_tests_cant": "an empty match would loop or desynchronise indices only for specific inputs", "anchors": ["cmakelang/lex/__init__.py:tokenize"]}
{"id": "C04", "title": "Token kind determines token shape", "statement": "Every token's spelling has the shape its kind promises: parentheses are the single characters ( and ), a newline token is one of \\n, \\r\\n, \\r, a whitespace token is a non-empty run of space/tab/formfeed/vtab, a word is an identifier, a number is an optional minus and digits, a line comment starts with # and contains no newline, a bracket comment or argument is delimited by matching brackets, a quoted argument starts and ends with the same quote.", "quantifier": "every input string and every token in it", "why_tests_cant": "the rules are tried in priority order with look-around; which rule wins depends on unbounded context", "anchors": ["cmakelang/lex/__init__.py:tokenize"]}
{"id": "C05", "title": "Parentheses and line breaks are never hidden", "statement": "A ( or ) or # of the input lies inside a quoted argument, a bracket argument, a comment, an escape or a $(...) reference, or else it is a token of its own / starts a comment: no plain word, number, whitespace or newline token contains one, and only quoted, bracket, comment-sentinel and legacy unquoted tokens may span lines.", "quantifier": "every input string and every token", "why_tests_cant": "needs every combination of context before the character", "anchors": ["cmakelang/lex/__init__.py:tokenize"]}
{"id": "C06", "title": "Re-lexing a token in isolation", "statement": "Words, numbers, parentheses, newlines and whitespace runs are context-free: the spelling of such a token, lexed alone, is again one token of the same kind.", "quantifier": "every input string and every such token", "why_tests_cant": "needs all spellings a rule can produce", "anchors": ["cmakelang/lex/__init__.py:tokenize"]}
{"id": "C07", "title": "Parsing keeps every token", "statement": "A successful parse puts every token of the input in the parse tree exactly once and in order, so the spellings of the tree's tokens reproduce the listfile. (False of the code for tuple-style argument groups followed directly by a format sentinel; proved with a witness, and proved outright for every other parser.)", "quantifier": "every token list, every command database built from the library's argument parsers, every nesting depth", "why_tests_cant": "dropping or duplicating a token needs a particular combination of parser, breaker stack and comment placement", "anchors": ["cmakelang/parse/__init__.py:parse", "cmakelang/parse/argument_nodes.py:StandardArgTree.parse2", "cmakelang/parse/argument_nodes.py:PositionalGroupNode.parse2", "cmakelang/parse/argument_nodes.py:ConditionalGroupNode.parse", "cmakelang/parse/additional_nodes.py:TupleGroupNode.parse", "cmakelang/parse/statement_node.py:StatementNode.consume", "cmakelang/parse/body_nodes.py:BodyNode.consume"]}
{"id": "C08", "title": "Parsing terminates", "statement": "Parsing any token list either returns a tree or raises, in a number of steps bounded by the number of tokens. (False of the code: a condition such as if(a AND#c) loops forever; proved with a witness, and proved for every input outside that pattern.)", "quantifier": "every token list and command database", "why_tests_cant": "non-termination can only be excluded by an argument about all inputs", "anchors": ["cmakelang/parse/argument_nodes.py:ConditionalGroupNode.parse", "cmakelang/parse/argument_nodes.py:StandardArgTree.parse2", "cmakelang/parse/body_nodes.py:BodyNode.consume"]}
{"id": "C09", "title": "Flow control blocks are properly bracketed", "statement": "In a parse tree every flow-control block is an opening statement, then bodies alternating with statements; the opening statement's command is one of if/while/foreach/function/macro, and if the block is closed its last statement is the matching end command; inner separators of an if-block are only else/elseif.", "quantifier": "every token list, nesting depth and command database", "why_tests_cant": "arbitrary nesting depth", "anchors": ["cmakelang/parse/body_nodes.py:FlowControlNode.consume", "cmakelang/parse/body_nodes.py:IfBlockNode.consume"]}
{"id": "C10", "title": "Statement shape", "statement": "Every statement node of a parse tree consists of a command name, an opening parenthesis, arguments, and a closing parenthesis, with only whitespace and comments in between; the command name is a word token and the parentheses are parenthesis tokens.", "quantifier": "every token list and every statement in the tree", "why_tests_cant": "ranges over all parsers that may fill the argument slot", "anchors": ["cmakelang/parse/statement_node.py:StatementNode.consume"]}
{"id": "C11", "title": "Positional groups respect their arity", "statement": "A positional group parsed with exact arity n never holds more than n arguments, a '?' group never more than one, and a group stops at the first keyword, flag-of-parent or closing parenthesis that the breaker stack names.", "quantifier": "every arity, breaker stack and token list", "why_tests_cant": "arity and breakers interact with comments and nested parentheses", "anchors": ["cmakelang/parse/argument_nodes.py:PositionalGroupNode.parse2", "cmakelang/parse/util.py:pargs_are_full", "cmakelang/parse/util.py:should_break"]}
{"id": "C12", "title": "Formatting preserves the program text", "statement": "If formatting succeeds (sorting off, no format-off regions), the non-blank characters of the output that do not belong to comments are exactly those of the input in the same order, up to the configured letter case of command names and keywords. (False of the code where a bracket comment starts a multi-line trailing comment; proved with a witness.)", "quantifier": "every listfile, every configuration, every command database", "why_tests_cant": "this is the contract of a formatter: it must hold for every listfile", "anchors": ["cmakelang/format/__main__.py:process_file", "cmakelang/format/formatter.py:write_tree", "cmakelang/format/formatter.py:layout_tree"]}
{"id": "C13", "title": "Nothing is swallowed by a comment", "statement": "In formatted output, no argument, parenthesis or command is written on the same line after a line comment. (False of the code for mixed bracket/line trailing comments; proved with a witness.)", "quantifier": "every listfile and configuration", "why_tests_cant": "depends on the position the layout search chose for every pair of neighbours", "anchors": ["cmakelang/format/formatter.py:PargGroupNode._reflow", "cmakelang/format/formatter.py:ArgGroupNode._reflow", "cmakelang/format/formatter.py:StatementNode._reflow", "cmakelang/format/formatter.py:is_line_comment"]}
{"id": "C14", "title": "Neighbouring arguments stay separated", "statement": "In formatted output two neighbouring arguments (or keywords, flags) are always separated by at least one blank or newline, so they can never be glued into one argument.", "quantifier": "every listfile and configuration", "why_tests_cant": "depends on the position the layout search chose for every pair of neighbours", "anchors": ["cmakelang/format/formatter.py:PargGroupNode._reflow", "cmakelang/format/formatter.py:KwargGroupNode._reflow", "cmakelang/format/formatter.py:CursorFile.write_at"]}
{"id": "C15", "title": "Writing never runs backwards", "statement": "The writer either raises or writes each text at exactly the row and column the layout assigned; it never overwrites or reorders text.", "quantifier": "every sequence of writes with any positions", "why_tests_cant": "the sequence of positions is unbounded", "anchors": ["cmakelang/format/formatter.py:CursorFile"]}
{"id": "C16", "title": "A valid layout fits the line width", "statement": "If the formatter reports a valid layout for a file, no line of the layout extends past line_width.", "quantifier": "every listfile, every line width and every other option", "why_tests_cant": "the search over passes chooses different layouts for different widths", "anchors": ["cmakelang/format/formatter.py:LayoutNode._validate_layout", "cmakelang/format/formatter.py:LayoutNode.reflow", "cmakelang/format/__main__.py:process_file"]}
{"id": "C17", "title": "The layout search is deterministic and takes the first acceptable pass", "statement": "The layout of a node is the result of the first pass whose result is accepted, and of the last permitted pass if none is accepted; passes beyond the parent's pass are never tried.", "quantifier": "every node, pass table and width", "why_tests_cant": "ranges over all pass tables (user-configurable)", "anchors": ["cmakelang/format/formatter.py:LayoutNode.reflow"]}
{"id": "C18", "title": "Format-off regions are copied verbatim", "statement": "Between a format-off and the next format-on sentinel the output contains exactly the input text of that region. (False of the code for inputs that begin with a byte-order mark, and when two off sentinels follow each other; proved with witnesses.)", "quantifier": "every listfile with at least one region", "why_tests_cant": "byte offsets versus characters, regions that start inside statements", "anchors": ["cmakelang/format/formatter.py:OnOffSwitchNode.write", "cmakelang/format/formatter.py:WriteContext"]}
{"id": "C19", "title": "Line ending normalisation", "statement": "Normalising line endings is idempotent, leaves no carriage return before a newline and no blank before a newline, and removes nothing but blanks and carriage returns adjacent to line ends.", "quantifier": "every string", "why_tests_cant": "all mixtures of CR, LF, blanks", "anchors": ["cmakelang/format/formatter.py:normalize_line_endings"]}
{"id": "C20", "title": "Auto line-ending detection", "statement": "line_ending=auto selects windows exactly when strictly more line ends of the input are CRLF than bare LF, and the output then uses exactly one kind of line ending for every line the formatter breaks.", "quantifier": "every input text", "why_tests_cant": "counting argument over all texts", "anchors": ["cmakelang/format/__main__.py:detect_line_endings", "cmakelang/format/__main__.py:process_file"]}
{"id": "C21", "title": "Tab conversion only changes leading blanks", "statement": "With use_tabchars every line keeps its text after the indentation; the indentation of n spaces becomes n/tab_size tabs followed by the remainder as spaces or one tab; applying it twice is the same as applying it once; line count is unchanged.", "quantifier": "every output text, every positive tab size and both policies", "why_tests_cant": "all texts and tab sizes", "anchors": ["cmakelang/format/formatter.py:replace_with_tabs", "cmakelang/format/formatter.py:count_indentation"]}
{"id": "C22", "title": "Sorting an argument list only permutes it", "statement": "Sorting keeps every argument and every comment exactly once, keeps comments with the argument they follow, keeps comments that precede the first argument in front, orders the arguments by case-insensitive key and is stable; sorting a sorted list changes nothing.", "quantifier": "every argument group", "why_tests_cant": "all lists", "anchors": ["cmakelang/format/formatter.py:sort_arguments", "cmakelang/format/formatter.py:filename_node_key"]}
{"id": "C23", "title": "Letter-case policies only change letter case", "statement": "Whatever command_case / keyword_case is configured, the written command name or keyword equals the original up to letter case (or is the configured canonical spelling of that same command); unchanged leaves it identical.", "quantifier": "every spelling and configuration", "why_tests_cant": "all spellings, all override tables", "anchors": ["cmakelang/format/formatter.py:ScalarNode._write", "cmakelang/configuration.py:Configuration.resolve_for_command"]}
{"id": "C24", "title": "Comment reflow keeps the words", "statement": "Reflowing a paragraph comment keeps its sequence of words, never splits a word, and no line exceeds the width unless it is a single word.", "quantifier": "every comment text and width", "why_tests_cant": "all texts; textwrap is iterated until stable", "anchors": ["cmakelang/markup.py:format_item", "cmakelang/common.py:stable_wrap"]}
{"id": "C25", "title": "Comment reflow converges", "statement": "Reflowing a paragraph terminates without error, and wrapping its own output reproduces it, so reflowing twice gives the same lines. (The first half is false of the code: eight rounds are not always enough and the run ends in an AssertionError; proved with a witness.)", "quantifier": "every paragraph and width", "why_tests_cant": "the code itself asserts on non-convergence after eight rounds; only a proof shows the assertion unreachable", "anchors": ["cmakelang/common.py:stable_wrap"]}
{"id": "C26", "title": "Comment reflow never invents a directive", "statement": "Reformatting a comment never creates a comment line that the tool itself reads as a directive when the file is formatted again. (False of the code: wrapping can put cmake-format: off at the start of a line; proved with a witness.)", "quantifier": "every comment text and width", "why_tests_cant": "depends on where a line happens to wrap", "anchors": ["cmakelang/markup.py:format_items", "cmakelang/format/formatter.py:format_comment_lines", "cmakelang/lex/__init__.py:tokenize"]}
{"id": "C27", "title": "Markup parsing keeps every line", "statement": "Parsing comment lines into markup items assigns every non-blank input line to exactly one item, in order; only blank lines are merged.", "quantifier": "every list of comment lines", "why_tests_cant": "state machine with unbounded history", "anchors": ["cmakelang/markup.py:parse"]}
{"id": "C28", "title": "Blank lines between blocks are collapsed to one", "statement": "Between two blocks (statements or comments) the output has at most one blank line, and has one iff the input has an empty line there (or the block in between is an empty body); there are none at the end. Blank lines are never inserted inside a statement.", "quantifier": "every listfile and configuration", "why_tests_cant": "all whitespace runs", "anchors": ["cmakelang/format/formatter.py:WhitespaceNode", "cmakelang/format/formatter.py:create_box_tree"]}
{"id": "C29", "title": "Output ends with exactly one newline of the configured kind", "statement": "The formatted text of a file whose layout writes at least one item ends with the configured line ending.", "quantifier": "every listfile and configuration", "why_tests_cant": "all inputs", "anchors": ["cmakelang/format/formatter.py:CursorFile.getvalue"]}
{"id": "C30", "title": "Configuration merge is a right-biased deep merge", "statement": "Merging configuration files keeps every key of either; a leaf present in the later file wins; sections are merged recursively; a section is never replaced by a scalar.", "quantifier": "every pair of nested mappings", "why_tests_cant": "arbitrary nesting", "anchors": ["cmakelang/format/__main__.py:map_merge"]}
{"id": "C31", "title": "Precedence of several configuration files", "statement": "With several -c files a value in a later file overrides the same value in an earlier one, whatever the files contain; includes are read after everything already queued.", "quantifier": "every list of files and include graph", "why_tests_cant": "all include graphs", "anchors": ["cmakelang/format/__main__.py:get_configdict"]}
{"id": "C32", "title": "Configuration loading terminates on acyclic includes", "statement": "Reading configuration files with includes terminates when the include graph has no cycle. (A cycle makes the code loop forever; proved with a witness.)", "quantifier": "every include graph", "why_tests_cant": "graph property", "anchors": ["cmakelang/format/__main__.py:get_configdict"]}
{"id": "C33", "title": "Nearest configuration file wins", "statement": "The configuration file chosen for an input is in the nearest ancestor directory that has any candidate file name, and among several in that directory the one first in the documented order; none is chosen only if no ancestor has one.", "quantifier": "every path depth and every filesystem content", "why_tests_cant": "all directory depths", "anchors": ["cmakelang/format/__main__.py:find_config_file"]}
{"id": "C34", "title": "Per-command overrides", "statement": "A per-command value overrides the global value for exactly that command, regardless of letter case in which the command is written, and never affects other commands.", "quantifier": "every command, key and override table", "why_tests_cant": "all tables", "anchors": ["cmakelang/configuration.py:Configuration.resolve_for_command", "cmakelang/configuration.py:MiscConfig._update_derived"]}
{"id": "C35", "title": "Command-line options apply to every input", "statement": "A formatting option given on the command line is in force for every input file. (False of the code: it is consumed by the first file; proved with a witness.)", "quantifier": "every list of input files and options", "why_tests_cant": "depends on the number of files", "anchors": ["cmakelang/format/__main__.py:inner_main", "cmakelang/format/__main__.py:onefile_main", "cmakelang/config_util.py:ConfigObject.legacy_consume"]}
{"id": "C36", "title": "In-place formatting is crash safe", "statement": "At every point of an in-place run the file at the input path holds either its complete old content or its complete new content, whatever step the process dies at.", "quantifier": "every file content, every crash point between filesystem operations", "why_tests_cant": "crash points cannot be enumerated by unit tests", "anchors": ["cmakelang/format/__main__.py:onefile_main"]}
{"id": "C37", "title": "In-place formatting touches nothing when there is nothing to do", "statement": "If the formatted text equals the input text no filesystem write happens, and --check never writes at all.", "quantifier": "every file content and configuration", "why_tests_cant": "all contents", "anchors": ["cmakelang/format/__main__.py:onefile_main"]}
{"id": "C38", "title": "Exit status of the formatter", "statement": "The exit status is 0 iff no file failed its check, and a failing file does not stop the following ones; with require_valid_layout an invalid layout fails the file and nothing is written for it.", "quantifier": "every list of files with every outcome", "why_tests_cant": "all sequences of outcomes", "anchors": ["cmakelang/format/__main__.py:inner_main", "cmakelang/format/__main__.py:main"]}
{"id": "C39", "title": "Disabled formatting is a no-op", "statement": "With disable set nothing is read, written or printed for that file.", "quantifier": "every file and option", "why_tests_cant": "all option combinations", "anchors": ["cmakelang/format/__main__.py:onefile_main"]}
{"id": "C40", "title": "Lint suppression hides exactly the named codes in the region", "statement": "A record is reported iff its code is not disabled globally and not suppressed at its line; a suppression never hides other codes or other lines before it starts.", "quantifier": "every sequence of lint records and suppression events in line order", "why_tests_cant": "all histories", "anchors": ["cmakelang/lint/lint_util.py:FileContext.get_lint", "cmakelang/lint/lint_util.py:FileContext.suppress"]}
{"id": "C41", "title": "Lint output is sorted and complete", "statement": "Reported records are ordered by location, then code, then order of discovery; every recorded unsuppressed record is reported exactly once.", "quantifier": "every history of records", "why_tests_cant": "all histories", "anchors": ["cmakelang/lint/lint_util.py:FileContext.get_lint"]}
{"id": "C42", "title": "Lint exit status", "statement": "cmake-lint exits 0 iff every file was readable and has no reported lint; unreadable files do not stop the others.", "quantifier": "every list of files with every outcome", "why_tests_cant": "all sequences", "anchors": ["cmakelang/lint/__main__.py:inner_main", "cmakelang/lint/__main__.py:main"]}
{"id": "C43", "title": "Per-line lint is exact", "statement": "A line-length record is reported for a line iff the line is longer than line_width, a trailing-whitespace record iff it ends in a blank, a missing-final-newline record iff the text does not end in a newline, a tab-policy record (for space indentation) iff a tab occurs in its indentation, each once and with the right line (and column) number.", "quantifier": "every text and configuration", "why_tests_cant": "all texts", "anchors": ["cmakelang/lint/basic_checker.py:check_basics"]}
{"id": "C44", "title": "Lint summary counts", "statement": "The summary count for each category equals the number of reported records with that category letter over all files.", "quantifier": "every history", "why_tests_cant": "all histories", "anchors": ["cmakelang/lint/lint_util.py:GlobalContext.get_category_counts"]}
{"id": "C45", "title": "HTML rendering is faithful and balanced", "statement": "Rendering a parse tree to HTML emits every token's text once in order, inside balanced span tags. (Text is not escaped: false for text containing markup; proved with a witness.)", "quantifier": "every parse tree", "why_tests_cant": "all trees", "anchors": ["cmakelang/render.py:dump_html"]}
{"id": "C46", "title": "Truthiness of option strings", "statement": "parse_bool accepts exactly the documented spellings in any letter case; everything else is false.", "quantifier": "every string", "why_tests_cant": "all strings", "anchors": ["cmakelang/config_util.py:parse_bool"]}
{"id": "C47", "title": "Configuration dump/clone round trip", "statement": "Cloning a configuration through its dictionary form yields the same value for every option, and dumping without defaults contains exactly the overridden options.", "quantifier": "every configuration object", "why_tests_cant": "all option assignments", "anchors": ["cmakelang/config_util.py:ConfigObject._as_dict", "cmakelang/config_util.py:ConfigObject.clone", "cmakelang/config_util.py:ConfigObject.consume_known"]}
{"id": "C48", "title": "Unknown options never change known ones", "statement": "A configuration dictionary with unknown keys yields the same option values as the one without them.", "quantifier": "every dictionary", "why_tests_cant": "all dictionaries", "anchors": ["cmakelang/config_util.py:ConfigObject.consume_known"]}
{"id": "C49", "title": "Nested configuration sections in python config files", "statement": "Assignments inside with section(...) end up exactly under that section path; leaving the section restores the outer scope.", "quantifier": "every sequence of push/pop/assign operations", "why_tests_cant": "all histories", "anchors": ["cmakelang/config_util.py:ExecGlobal"]}
{"id": "C50", "title": "Command lookup ignores letter case", "statement": "The parser chosen for a statement depends only on the lower-cased command name, so changing the letter case of a command name never changes how its arguments are parsed.", "quantifier": "every spelling and database", "why_tests_cant": "all spellings", "anchors": ["cmakelang/parse/statement_node.py:StatementNode.consume"]}
{"id": "C51", "title": "Wrong line endings are reported exactly", "statement": "A wrong-line-ending record is reported for a line iff the line is terminated and its terminator differs from the configured one (LF for unix, CR LF for windows).", "quantifier": "every text and configuration", "why_tests_cant": "all texts; in particular the empty piece after the final newline", "anchors": ["cmakelang/lint/basic_checker.py:check_basics"]}
{"id": "C52", "title": "Comment formatting fails only by assertion", "statement": "Formatting a comment, whatever its text, markup and width, either gives lines or stops with one of the tool's own assertions; it never raises IndexError or ValueError.", "quantifier": "every comment, configuration and width", "why_tests_cant": "list entries without text would crash; only an invariant over all comment lines rules them out", "anchors": ["cmakelang/markup.py:format_items", "cmakelang/common.py:stable_wrap", "cmakelang/format/formatter.py:format_comment_lines"]}
{"id": "C53", "title": "Indentation is the nesting depth", "statement": "In the output every statement and every comment between statements starts on a line of its own, in the order of the input, indented by tab_size blanks for each if/foreach/while/function/macro block around it.", "quantifier": "every listfile and configuration", "why_tests_cant": "nesting depth, number and size of blocks are unbounded", "anchors": ["cmakelang/format/formatter.py:BodyNode", "cmakelang/format/formatter.py:FlowControlNode", "cmakelang/format/formatter.py:StatementNode"]}
{"id": "C54", "title": "Lists in comments keep their nesting and are renumbered in alignment", "statement": "When a comment is reflowed, a list nested in another one stays nested: its lines are indented by two blanks for each list around it (the nearest earlier less-indented list of the same run contains it), and formatted to the remaining width; the numbers of an enumeration of n entries take the same room (except when n is a power of ten, where the last number is one column wider).", "quantifier": "every comment, width and nesting", "why_tests_cant": "arbitrary sequences of indentations and lengths of lists", "anchors": ["cmakelang/markup.py:format_items", "cmakelang/markup.py:format_item"]}
{"id": "C55", "title": "Declared commands are parsed by their declaration", "statement": "A command listed in additional_commands is parsed by exactly its (last) declaration, found by its name in any letter case: the spelling given or the name, the positional groups, the flags and each keyword's own declaration; every command that is not declared is parsed as if nothing had been declared. (if, elseif and while keep their own grammar.)", "quantifier": "every table of declarations, with any nesting of keywords, and every command name", "why_tests_cant": "tables and nesting of keywords are unbounded", "anchors": ["cmakelang/parse/util.py:CommandSpec", "cmakelang/parse/util.py:parse_pspec", "cmakelang/parse/funs/__init__.py:get_funtree", "cmakelang/parse/funs/__init__.py:get_parse_db", "cmakelang/configuration.py:ParseConfig"]}
{"id": "C56", "title": "override_spec changes the addressed value and nothing else", "statement": "An entry path.key: value of override_spec that is accepted sets that one value of the command, keyword or positional group at that path, which must exist; all other values there, and everything at every other path, stay the same. An address that names nothing is reported as a mistake of the user.", "quantifier": "every table of declarations, every path and value", "why_tests_cant": "paths of unbounded depth in arbitrary tables", "anchors": ["cmakelang/parse/util.py:apply_overrides", "cmakelang/configuration.py:ParseConfig"]}
{"id": "C57", "title": "The output is read back as the same program", "statement": "Tokenizing the formatted text again gives, comments and blanks aside, the tokens of the input one by one, in the same order unless arguments are sorted: each with the same type and spelling, up to the configured letter case and command spellings; only an argument that was read as unquoted because it touched its neighbours may be read as another kind of argument.", "quantifier": "every text without format switches whose tokens are portable (well-formed arguments, no comment of the form ##[), and every configuration that writes line feeds and no tabs", "why_tests_cant": "texts, nestings and layouts are unbounded, and every pair of neighbouring tokens at every distance matters", "anchors": ["cmakelang/format/__main__.py:process_file", "cmakelang/lex/__init__.py:tokenize", "cmakelang/format/formatter.py:write_tree"]}
{"id": "C58", "title": "No line of the output ends in blanks", "statement": "The formatted text is a sequence of lines, each closed by the configured or detected line end (the last one too); no line contains a line feed elsewhere, and none ends in a blank, a tab or a carriage return.", "quantifier": "every text without format switches in which no argument ends in an escaped blank, every configuration that writes no tabs", "why_tests_cant": "the layout breaks lines at unboundedly many places, after every kind of token and inside comments of any text", "anchors": ["cmakelang/format/formatter.py:CursorFile", "cmakelang/format/formatter.py:write_tree", "cmakelang/markup.py:format_items", "cmakelang/common.py:stable_wrap"]}
{"id": "C59", "title": "Reading ignores blanks and letter case", "statement": "Two texts that have the same words, that is the same tokens apart from blanks, line ends and letter case, are read alike: if one is accepted the other is, and the parse trees have the same structure, the same node types, keyword and positional groups, sortability and words. So reindenting a file or changing the case of its keywords cannot change how it will be formatted structurally.", "quantifier": "every pair of texts without comments and format switches, every user command table whose keywords are not blank", "why_tests_cant": "the blanks between tokens are arbitrary and the grammar is recursive; every parse function looks ahead over blanks in its own way", "anchors": ["cmakelang/parse/statement_node.py:StatementNode", "cmakelang/parse/argument_nodes.py:StandardArgTree", "cmakelang/parse/funs/foreach.py", "cmakelang/parse/util.py:get_first_semantic_token"]}
{"id": "C60", "title": "The output means the same to the tool", "statement": "The text the formatter writes is accepted by its own parser and read as a tree of the same structure as the input: the same commands in the same blocks, with the same keywords, flags and arguments in the same groups, and comments in the same places.", "quantifier": "every text without format switches whose comments stand between its commands and stay what they are when formatted again, and whose unquoted arguments stay unquoted arguments in every letter case, every command table, every layout option without tabs, byte-order mark and sorting", "why_tests_cant": "the layout depends on every option and on the widths of all words; a gap in the wrong place can turn one keyword group into another for one command only", "anchors": ["cmakelang/format/__main__.py:process_file", "cmakelang/parse/__init__.py:parse", "cmakelang/format/formatter.py:write_tree"]}
{"id": "C61", "title": "Formatting is idempotent", "statement": "Formatting the output of the formatter with the same configuration gives the same text again and the same verdict on its validity, so a formatted repository stays unchanged and `--check` accepts what `-i` wrote.", "quantifier": "every text without format switches and without blank lines at the start, whose comments stand between its commands and stay what they are when formatted again (such as comments of plain sentences), every command table, every line width, indentation, wrapping limit, dangling, separator and case option", "why_tests_cant": "the layout of a tree is a fixpoint search over passes; that the tree re-read from any output takes the same passes cannot be checked by listing files", "anchors": ["cmakelang/format/__main__.py:process_file", "cmakelang/format/formatter.py:layout_tree", "cmakelang/format/formatter.py:LayoutNode.reflow", "cmakelang/format/formatter.py:BodyNode"]}
{"id": "C62", "title": "Arguments are grouped as the command is declared", "statement": "When a command is read, its words are grouped as its declaration says. A word that is a keyword of the command opens a keyword group, in any letter case; the words after it belong to that group up to the next keyword, or as many as the declaration says; a flag of the command after a keyword group, or a word after a keyword group that takes an exact number of words, opens a new positional group; the first words of a command declared with an exact number belong together whatever they are; and a word is a flag exactly if the declaration lists it. Every statement is a name, an opening parenthesis, words and a closing parenthesis.", "quantifier": "every text in which format switches stand apart, every command without comments and nested parentheses in its argument list, every declaration by the user whose keywords have no keywords of their own, and every built-in command except 23 (12 of them covered by C63)", "why_tests_cant": "argument lists have any length and the keywords come in any order and number; 443 commands each have their own table", "anchors": ["cmakelang/parse/argument_nodes.py:StandardArgTree", "cmakelang/parse/argument_nodes.py:PositionalGroupNode", "cmakelang/parse/argument_nodes.py:KeywordGroupNode", "cmakelang/parse/argument_nodes.py:ConditionalGroupNode", "cmakelang/parse/simple_nodes.py", "cmakelang/parse/util.py:CommandSpec"]}
{"id": "C63", "title": "The form of a command is chosen by its deciding word", "statement": "file, list, install, foreach, add_custom_command, add_library, add_executable, cmake_policy, source_group, get_filename_component, install_files and install_programs have several forms with different keywords and flags. Which form is used depends on one word at one position (the first word for file, list, install, add_custom_command and cmake_policy, the second for foreach, add_library and add_executable, ...), in any letter case, and the words are then grouped by the keywords and flags of that form, whatever follows the command in the file.", "quantifier": "every text in which format switches stand apart, every form in the table of the specification, every argument list without comments and nested parentheses", "why_tests_cant": "the code looks at all the remaining tokens of the file, not only at those of the command; the words after the deciding one are arbitrary", "anchors": ["cmakelang/parse/funs/file.py:parse_file", "cmakelang/parse/funs/list.py:parse_list", "cmakelang/parse/funs/install.py:parse_install", "cmakelang/parse/funs/foreach.py:parse_foreach", "cmakelang/parse/funs/add_xxx.py:parse_add_custom_command", "cmakelang/parse/funs/add_library.py:parse_add_library", "cmakelang/parse/funs/miscellaneous.py"]}
{"id": "C64", "title": "Stray break and continue are reported", "statement": "cmake-lint reports E0103 exactly once for every break or continue command that is not inside a foreach or while block, at the place of the command and with its name in lower case, and reports E0103 for nothing else. With suppression pragmas it reports some of these and nothing more.", "quantifier": "every text that is parsed and linted, every configuration of the checks, every command table, every list of disabled codes without E0103; exactness for texts without lint pragmas, byte-order mark and glued format switches", "why_tests_cant": "blocks nest to any depth and are closed or left open in any combination; a test sees one nesting", "anchors": ["cmakelang/lint/basic_checker.py:LintChecker.check_statement", "cmakelang/lint/basic_checker.py:LintChecker.check_is_in_loop", "cmakelang/lint/lint_util.py:FileContext.get_lint"]}
{"id": "C65", "title": "Commands that can never run are reported", "statement": "cmake-lint reports W0101 exactly once for every return, break or continue command that is followed by another command in the same part of a block (before the end command of the block, or before elseif or else of an if), and for nothing else.", "quantifier": "as C64", "why_tests_cant": "what follows a command is decided by the parse tree of the rest of the file", "anchors": ["cmakelang/lint/basic_checker.py:LintChecker.check_body", "cmakelang/lint/basic_checker.py:LintChecker.check_tree"]}
{"id": "C66", "title": "Functions and macros over the limits are reported", "statement": "For the number of return commands (R0911), of if, elseif and else commands (R0912) and of all commands (R0915), cmake-lint reports exactly the function and macro definitions with more of them than the configured limit inside the definition, nested blocks included and the end command excluded. The record has the number and the limit and is on the line after the opening command.", "quantifier": "as C64, and every limit", "why_tests_cant": "the code counts nodes of a tree breadth first, users count commands of the text; the two must agree for every nesting", "anchors": ["cmakelang/lint/basic_checker.py:LintChecker.check_defn", "cmakelang/lint/basic_checker.py:find_statements_in_subtree", "cmakelang/lint/basic_checker.py:find_nodes_in_subtree"]}
{"id": "C67", "title": "Bad parameter lists are reported", "statement": "For every function and macro definition cmake-lint reports exactly: the parameters that are not words (E0109), the words that came before in the list (E0108), the words that came before only in another letter case (C0202), each at its own place, and the definitions with more parameters than the limit (R0913), with the number and the limit. Parameters after a closing parenthesis inside the list count for the limit and are not looked at otherwise.", "quantifier": "as C64, and every limit", "why_tests_cant": "the tree groups the words of a definition; that every word is seen once, in order and with the right set of earlier words must hold for every parameter list", "anchors": ["cmakelang/lint/basic_checker.py:LintChecker.check_argument_names", "cmakelang/lint/basic_checker.py:LintChecker.check_defn"]}
{"id": "C68", "title": "A file is read from front to back", "statement": "If one file is followed by another in the same text, the parse tree is what the two give by themselves, one after the other; if the second is rejected, the whole is rejected for the same reason. So what a command is read as does not depend on the commands after it. The first file must leave no block open, the second begin with a command, and the commands that look ahead (add_library and eight others) must find what they look at within the first file.", "quantifier": "every pair of token lists, every set of user-defined commands, every pattern for explicit trailing comments and every variable tag", "why_tests_cant": "the parse functions see the rest of the file, not just their command; some of them do look past the closing parenthesis, and tests only try a few combinations of neighbours", "anchors": ["cmakelang/parse/body_nodes.py:BodyNode.consume", "cmakelang/parse/statement_node.py:StatementNode.consume", "cmakelang/parse/util.py:get_first_semantic_token", "cmakelang/parse/funs/add_library.py:parse_add_library"]}
{"id": "C69", "title": "The linter accepts the lines the formatter wrote", "statement": "If cmake-format reports a valid layout for a file, then cmake-lint with the same width and line-ending options records nothing about the lines of the written file: no line too long (C0301), no trailing blank (C0303), no missing final newline (C0304), no tab in the indentation (C0306), no wrong line end (C0327). (False of the code for CR LF line ends: the linter counts the carriage return; proved with a witness.)", "quantifier": "every plain text (C12) and every pair of configurations that agree on width and line ends", "why_tests_cant": "two tools with separate code must agree on every output the formatter can produce", "anchors": ["cmakelang/lint/basic_checker.py:LintChecker.check_basics", "cmakelang/format/__main__.py:process_file"]}
{"id": "C70", "title": "Every public function and macro gets a declaration", "statement": "The table that cmake-genparsers writes for a file has exactly one entry for each name, in small letters, of the functions and macros that are defined anywhere in the file (inside other blocks as well) and whose names do not begin with an underscore.", "quantifier": "every text that parses and for which the program ends without an exception", "why_tests_cant": "the definitions are found by a search through the tree that skips some nodes; that none is missed or taken twice must hold for every nesting", "anchors": ["cmakelang/genparsers.py:process_tree", "cmakelang/genparsers.py:find_statements_in_subtree", "cmakelang/genparsers.py:process_defn"]}
{"id": "C71", "title": "Declarations say what the definition says", "statement": "Every entry belongs to a function or macro of that name: without a call of cmake_parse_arguments inside it says as many positional arguments as there are parameters, and no flags or keywords; with one it says at least as many, and the flags, the keywords with one value and the keywords with several values are the names in the three lists of such a call (of the first one directly in the body, if there is one; references `${name}` stand for the values that plain `set` commands directly in the body gave before it, where plain means no comments, parentheses, CACHE or PARENT_SCOPE). The table is accepted as additional_commands of a configuration, and calls are then read with these flags and keywords.", "quantifier": "every text that parses and for which the program ends without an exception", "why_tests_cant": "lists of names come from arbitrary texts with references to variables; the declarations are interpreted by another program", "anchors": ["cmakelang/genparsers.py:process_defn_body", "cmakelang/genparsers.py:process_set_statement", "cmakelang/genparsers.py:replace_varrefs", "cmakelang/parse/util.py:CommandSpec"]}
{"id": "C72", "title": "Generating declarations ends", "statement": "For every file cmake-genparsers ends. (False of the code: proved with a witness for which replacing references goes on for ever. It ends if every dollar sign in the arguments of set begins a reference ${name}.)", "quantifier": "every text that parses", "why_tests_cant": "the loop goes on as long as there are references left, and values may contain references", "anchors": ["cmakelang/genparsers.py:replace_varrefs"]}
{"id": "C73", "title": "Tabs and the byte-order mark are added to a finished text", "statement": "Formatting with use_tabchars or emit_byteorder_mark succeeds exactly if formatting without them does and the indentation can be converted; the verdict is the same, and the text is the one written without them, after the mark, with each line's indentation converted to tabs. With a positive tab size and a documented policy the conversion never fails.", "quantifier": "every text, every configuration", "why_tests_cant": "texts, options and their combinations are unbounded", "anchors": ["cmakelang/format/__main__.py:process_file", "cmakelang/format/formatter.py:replace_with_tabs"]}
{"id": "C74", "title": "Indenting with tabs keeps the program", "statement": "The output with tabs is read back as the same program: its program tokens are, one by one, those of the input, spelled as the options say. (False of the code: the lines within a multi-line string or bracket argument, and those of a switched-off region, are re-indented too. Proved when no such line starts with a blank.)", "quantifier": "every plain, steady text without indented lines within arguments, every configuration with tabs", "why_tests_cant": "every text and every way its lines can be broken and indented", "anchors": ["cmakelang/format/formatter.py:replace_with_tabs", "cmakelang/lex/__init__.py:tokenize"]}
{"id": "C75", "title": "Commands that need a first word are reported without one", "statement": "cmake-lint reports E1126 exactly once for every file, list, add_custom_command and cmake_policy that does not start with one of its words, at that place, and C0114 exactly once for every one that starts with a variable reference; nothing else is reported with these codes. Commands declared by the user are left out.", "quantifier": "every text that is linted to the end, every configuration; texts without pragmas for the exact count, any text for the upper bound", "why_tests_cant": "every text, every nesting of blocks and every order of commands", "anchors": ["cmakelang/parse/funs/file.py:parse_file", "cmakelang/parse/funs/list.py:parse_list", "cmakelang/parse/funs/add_xxx.py:parse_add_custom_command", "cmakelang/parse/funs/miscellaneous.py:parse_cmake_policy"]}
{"id": "C76", "title": "Arguments of commands that take none are reported", "statement": "A break, continue, enable_testing or return with arguments is reported with E1121 at its first argument; every E1121 is at an argument of such a command, or of a set with at least four arguments. Empty parentheses are never reported.", "quantifier": "every text without a byte-order mark and format switches, every configuration", "why_tests_cant": "every text and every list of arguments, with comments and nested parentheses", "anchors": ["cmakelang/parse/funs/break.py:parse_empty", "cmakelang/parse/funs/set.py:parse_set"]}
{"id": "C77", "title": "Missing required keywords are reported", "statement": "An add_custom_command without COMMENT is reported with C0113, one without COMMAND with E1125, and an add_custom_target without COMMENT with C0113, at its first argument and with the keyword; these codes are reported for such commands only, and not if the keyword is there.", "quantifier": "every text, every configuration", "why_tests_cant": "every list of arguments in every order", "anchors": ["cmakelang/parse/argument_nodes.py:check_required_kwargs", "cmakelang/parse/funs/add_xxx.py:parse_add_custom_target"]}
{"id": "C78", "title": "cmake-lint finishes for every file that parses", "statement": "For every file that can be parsed cmake-lint prints a report. (False of the code: proved that it does not for any file with a build_command that has an argument, whatever else is in it, unless W0106 is disabled; further witnesses for single files.)", "quantifier": "every text with such a command, every configuration that does not disable W0106", "why_tests_cant": "the claim is about all files", "anchors": ["cmakelang/parse/funs/miscellaneous.py:parse_build_command", "cmakelang/lint/lint_util.py:FileContext.record_lint", "cmakelang/parse/funs/add_xxx.py:parse_add_custom_target"]}
{"id": "C79", "title": "Exactly the names that do not match their pattern are reported", "statement": "cmake-lint reports C0103 exactly for: the name of a function (macro) that does not match function_pattern (macro_pattern); a parameter that is a word, not given before in any letter case, and does not match argument_var_pattern; the first argument of a foreach likewise; and the variable a set, or the output of list(LENGTH|GET|JOIN|SUBLIST), assigns, if its name without the variable references in it is not empty and does not match the pattern for where it goes (CACHE, INTERNAL, PARENT_SCOPE, a function, a directory). The message has the kind, the name as written and the pattern, at the position of the name. References are taken out until there is none; a name made of text and references is checked as the text.", "quantifier": "every text without lint pragmas whose set and list commands have no parentheses in them (comments and switches are allowed); every option and regular expression", "why_tests_cant": "every nesting of blocks and every way to write an assignment", "anchors": ["cmakelang/lint/basic_checker.py:get_scope_of_assignment", "cmakelang/lint/basic_checker.py:mock_varrefs", "cmakelang/lint/basic_checker.py:LintChecker.check_defn", "cmakelang/lint/basic_checker.py:LintChecker.check_foreach", "cmakelang/lint/basic_checker.py:LintChecker.check_assignment"]}
{"id": "C80", "title": "Exactly the misspelt built-in variables are reported", "statement": "cmake-lint reports W0105 exactly for: the first argument of a set and the second of a list, and every reference ${name} in a quoted argument or a variable reference, whose name in capital letters starts with a built-in variable's name but as written does not match any. The message has the context and the name, at the position of the argument. A built-in name as written in the table is never reported.", "quantifier": "every text without lint pragmas whose set and list commands have no parentheses in them (comments and switches are allowed); every configuration", "why_tests_cant": "every name and every place of a reference", "anchors": ["cmakelang/lint/basic_checker.py:LintChecker.check_varname", "cmakelang/lint/basic_checker.py:LintChecker.check_variable_assignments", "cmakelang/lint/basic_checker.py:LintChecker.check_variable_references", "cmakelang/parse/variables.py:PATTERNS"]}
{"id": "C81", "title": "cmake-lint finishes for every sound file", "statement": "For every file that parses and is sound, cmake-lint gets to the end and prints a report, whatever the options are. Sound means: the file is not empty and has no byte-order mark; every block is closed; every ${ in a literal argument has its }; set and list are not redefined and have no parentheses in them, set has an argument and list two, and list(SORT) and list(TRANSFORM) have no comments; in a loop with ${ARGN} among its arguments no condition is just the first argument of the loop; in add_custom_target every group of arguments after the second begins with a keyword or flag, and there is no build_command, unless their codes are disabled or the user defines them. For the conditions there are files that fail without them.", "quantifier": "every text that parses and is sound; every option, configuration, user specification with readable argument counts", "why_tests_cant": "the claim is about all files; the checks index into lists and look up blocks in dozens of places", "anchors": ["cmakelang/lint/basic_checker.py:LintChecker", "cmakelang/lint/lint_util.py:FileContext.record_lint", "cmakelang/lint/__main__.py:process_file", "cmakelang/parse/body_nodes.py:FlowControlNode.get_block_with"]}
{"id": "C82", "title": "Spacing faults are reported exactly", "statement": "cmake-lint reports C0321 exactly once for every command that is not the first thing in the file and has no newline in the blanks right before it, and C0305 exactly once for every one with at least one newline there but fewer than the smallest or more than the largest accepted number; at the position of the command, saying which. The closing commands of blocks and else and elseif are not looked at. Comments before the command do not matter, nor blanks at the end of such comments.", "quantifier": "every text without lint pragmas and byte-order mark that is linted to the end; every configuration and user specification", "why_tests_cant": "every arrangement of commands, comments, blanks and blocks", "anchors": ["cmakelang/lint/basic_checker.py:LintChecker.check_body", "cmakelang/parse/body_nodes.py:BodyNode.consume", "cmakelang/lex/__init__.py:tokenize"]}
{"id": "C83", "title": "ctest-to never reports a test", "statement": "ctest-to finishes exactly when the test file of the given directory is missing or has nothing but blanks, comments, formatting switches and a byte-order mark; on every test file in which the parser finds a command it ends with an error. Whenever it finishes it has read at most that one file and the list of tests it prints is empty; with neither --json nor --xml it prints nothing. (A user would want every add_test reported; the code does not do this for any file.)", "quantifier": "every file system, every directory, every output option, every text of the test file", "why_tests_cant": "that no input whatsoever makes the tool report a test is a claim about all files", "anchors": ["cmakelang/ctest_to.py:ParseContext.parse_file", "cmakelang/ctest_to.py:ParseContext.start", "cmakelang/ctest_to.py:main", "cmakelang/parse/statement_node.py:StatementNode.consume"]}
{"id": "C84", "title": "Parentheses and arguments are placed as the options say", "statement": "In every formatted file the parenthesis of a command follows its name directly, or after exactly one blank if separate_ctrl_name_with_space (control commands) or separate_fn_name_with_space (others) is set. The arguments follow the parenthesis or stand on the next line indented by tab_size; the latter only if name and parenthesis are longer than min_prefix_chars; likewise for the arguments of a keyword. With dangle_parens the closing parenthesis of a command whose arguments end on a later line stands on a line of its own, in the column given by dangle_align; without it, it follows the arguments unless their line is full, they end in a comment or room is needed for a comment after it. Within a list each argument follows the previous one after one blank or stands on the next line in the column of the list.", "quantifier": "every configuration, every text that is formatted, every command, keyword and list in it", "why_tests_cant": "every combination of options with every nesting of commands, groups and comments", "anchors": ["cmakelang/format/formatter.py:StatementNode._reflow", "cmakelang/format/formatter.py:KwargGroupNode._reflow", "cmakelang/format/formatter.py:PargGroupNode._reflow", "cmakelang/format/formatter.py:ArgGroupNode._reflow"]}
{"id": "C85", "title": "A layout reported as valid obeys the wrapping limits", "statement": "If the layout of a file is reported as valid (what --require-valid-layout checks), then every list with more arguments than max_pargs_hwrap (or the limit of its command) or taking more lines than max_lines_hwrap has one argument per line; a command line starts on at most max_rows_cmdline lines; the groups of a command or keyword with more than max_subgroups_hwrap groups or taking more than max_lines_hwrap lines stand on lines of their own; the arguments of a command or keyword longer than max_prefix_chars that takes more than two lines stand on the next line; and the commands listed in always_wrap are wrapped.", "quantifier": "every configuration, every text that is formatted with a valid layout, every command, keyword and list in it", "why_tests_cant": "every combination of limits with every nesting of commands, groups and comments", "anchors": ["cmakelang/format/formatter.py:LayoutNode.reflow", "cmakelang/format/formatter.py:PargGroupNode._reflow", "cmakelang/format/formatter.py:ArgGroupNode._reflow", "cmakelang/configuration.py:FormattingConfig"]}
{"id": "C86", "title": "Missing and empty docstrings are reported exactly", "statement": "cmake-lint reports C0111 exactly once for every function() and macro() command with no comment right above it (nothing, or something other than a comment, or more than one newline between), and C0112 exactly once for every one whose comment says nothing, each at the place of the command, and no others; in particular a definition at the start of the file or behind a blank line is always reported. Pragmas can only remove reports.", "quantifier": "every configuration, every text that parses, every function and macro in it, at any depth of blocks", "why_tests_cant": "every nesting of blocks and every sequence of blanks, comments and commands before a definition", "anchors": ["cmakelang/lint/basic_checker.py:get_prefix_comment", "cmakelang/lint/basic_checker.py:LintChecker.check_body", "cmakelang/format/formatter.py:get_comment_lines"]}
{"id": "C87", "title": "The dumps tell everything", "statement": "The output of --dump lex determines the text of the file, and the output of --dump parse determines the nesting of the parse tree and the type and text of every token in it: two files or trees that differ have different dumps, whatever characters (quotes, backslashes, newlines, box-drawing characters) they contain.", "quantifier": "every text, every pair of parse trees", "why_tests_cant": "injectivity over all pairs of texts and trees; the drawing characters may occur in the text itself", "anchors": ["cmakelang/parse/printer.py:dump_tree", "cmakelang/lex/__init__.py:Token.__repr__", "cmakelang/format/__main__.py:process_file", "cmakelang/format/formatter.py:dump_tree"]}
{"id": "C88", "title": "cmake-annotate writes the annotated file to the output and touches nothing else", "statement": "At every point at which cmake-annotate may stop, every file but the one named by -o is as it was; after a successful run over one file the output file holds exactly the encoded document for that file (the html, the page, or the page in the iframe template), whose html shows the text of the input. False of the code: naming the input as output (its content is lost before it is read), an error (the old output file is left empty), and -c (the path is taken as a list of one-character paths).", "quantifier": "every file system, configuration, combination of options, crash point, and content of the files", "why_tests_cant": "every crash point and every earlier content of the files", "anchors": ["cmakelang/annotate.py:annotate_file", "cmakelang/annotate.py:main", "cmakelang/format/__main__.py:get_config", "cmakelang/format/__main__.py:get_configdict", "cmakelang/render.py:get_html"]}
{"id": "C89", "title": "A dumped configuration is read back as the same configuration", "statement": "What --dump-config writes, as Python, json or yaml, with or without help texts and with or without the options left at their defaults, gives every option the value it had when it is used as the configuration file. False of the code for the user's per_command options of the commands that have built-in ones (ExternalProject_*, FetchContent_*): these are dropped from the dump.", "quantifier": "every configuration file and every set of options on the command line, every dump format and dump option, every help text and width", "why_tests_cant": "a test dumps a few configurations; the values, and the combinations of changed options, are unbounded", "anchors": ["cmakelang/config_util.py:ConfigObject.dump", "cmakelang/config_util.py:ConfigObject._as_dict", "cmakelang/config_util.py:ExecGlobal", "cmakelang/format/__main__.py:dump_config", "cmakelang/configuration.py"]}
{"id": "C90", "title": "A pragma in the file hides exactly the codes it names, from there on", "statement": "A comment '# cmake-lint: disable=A,B' directly in a file hides the records with the codes A and B that lie on or below its first line; every other record is reported as often as it is found. False of the code for the last line: records on the line of the last token of the file are not hidden.", "quantifier": "every file whose pragmas stand directly in the file (not inside of a command or a block), every record, every set of options", "why_tests_cant": "a test looks at a few files; the number of pragmas, their places and the records between them are unbounded", "anchors": ["cmakelang/lint/basic_checker.py:LintChecker.check_body", "cmakelang/lint/basic_checker.py:LintChecker.parse_pragmas_from_comment", "cmakelang/lint/basic_checker.py:LintChecker.parse_pragmas_from_token", "cmakelang/lint/lint_util.py:FileContext.suppress", "cmakelang/lint/lint_util.py:FileContext.unsuppress", "cmakelang/lint/lint_util.py:FileContext.get_lint"]}
{"id": "C91", "title": "Where the value of an option comes from", "statement": "For the first input, every option has the value given on the command line; if it was not given there, the value at the top level of the configuration files; else the value in its section of the configuration files; else its default. No option of the tool is hidden by an option of the driver or an attribute of the configuration class.", "quantifier": "every option, every set of command-line arguments, every content of the configuration files", "why_tests_cant": "a test fixes a few options; the combinations of sources for all options are unbounded", "anchors": ["cmakelang/format/__main__.py:get_argdict", "cmakelang/format/__main__.py:onefile_main", "cmakelang/config_util.py:ConfigObject.__init__", "cmakelang/config_util.py:ConfigObject.consume_known", "cmakelang/config_util.py:ConfigObject.legacy_consume", "cmakelang/configuration.py:Configuration"]}
{"id": "C92", "title": "Badly indented lines are reported exactly", "statement": "cmake-lint reports C0307 exactly once for every token that directly follows blanks at the start of a line, if the width of the blanks (tabs count as tab_size) is not tab_size times the number of blocks around the token (for a token among arguments: if it is smaller), with the place of the token, the blanks, the token and the right blanks; and for nothing else. A command that closes a block or opens another branch does not count that block.", "quantifier": "every text without pragmas, every tab size, any number and nesting of blocks, every other option", "why_tests_cant": "the depth of the blocks and the places of the tokens are unbounded", "anchors": ["cmakelang/lint/basic_checker.py:LintChecker.check_token", "cmakelang/lint/basic_checker.py:LintChecker.get_scope_depth", "cmakelang/lint/basic_checker.py:LintChecker.check_tree"]}
{"id": "C93", "title": "Half-written references are reported exactly", "statement": "cmake-lint reports W0106 'open' exactly once for every quoted, unquoted or bracket argument in which, after all complete references ${name} are replaced from the inside out, the first unescaped $ or { before a name stands before the name of a variable of cmake (except $ENV); with the place of the word, the sign and the name. It reports W0106 'closing' exactly for those in which the first such sign stands before some other name and the first unescaped ${ stands before the name of a variable of cmake.", "quantifier": "every text without pragmas that is linted to the end, any nesting of references, any number of backslashes", "why_tests_cant": "nesting and escapes are unbounded; the regular expressions look behind over any number of backslashes", "anchors": ["cmakelang/lint/basic_checker.py:LintChecker.check_tokens", "cmakelang/lint/basic_checker.py:mock_varrefs", "cmakelang/parse/variables.py:CASE_SENSITIVE_REGEX"]}
{"id": "C94", "title": "Commands that are read word by word are grouped as documented", "statement": "set, foreach with IN or a plain list, add_custom_target, add_executable and add_library with sources, add_library with OBJECT, file with WRITE or APPEND, and the commands without arguments (break, continue, return, enable_testing) have parsers of their own. The first word or words (the variable; the loop variable with IN; the target with ALL; the target with the flags of its type; WRITE or APPEND with the file) make a positional group whatever they are. Then CACHE in set, LISTS and ITEMS in foreach, and the keywords of add_custom_target open keyword groups, in any letter case, which go on to the next keyword or as long as the keyword takes words; flags of add_custom_target that follow each other make a group; PARENT_SCOPE in set opens a positional group that goes on to CACHE; an executable takes any number of flags after its name, a library at most one type and then EXCLUDE_FROM_ALL; the words that are left make one positional group.", "quantifier": "every text in which format switches stand apart, each of these commands that the user has not declared, every argument list without comments and nested parentheses in which what is spelled like a keyword is a word", "why_tests_cant": "the loops read argument lists of any length with keywords in any order and number; which parser runs depends on words that are looked up in the rest of the file", "anchors": ["cmakelang/parse/funs/set.py:parse_set", "cmakelang/parse/funs/foreach.py", "cmakelang/parse/funs/add_xxx.py:parse_add_custom_target", "cmakelang/parse/funs/add_executable.py", "cmakelang/parse/funs/add_library.py", "cmakelang/parse/funs/file.py:parse_file_write", "cmakelang/parse/funs/break.py:parse_empty", "cmakelang/parse/additional_nodes.py:FlagGroupNode"]}
{"id": "C95", "title": "cmake-genparsers puts the declarations of all its files together", "statement": "cmake-genparsers with any number of input files writes one dictionary: for every name the declaration of the last file that declares it, in the order in which the names are first declared, so that the names are exactly those of the public functions and macros of all files. The output is opened only after all files have been read and processed, no other file is changed at any moment, and if an input cannot be opened or its text cannot be processed the program fails and has written nothing.", "quantifier": "every list of input files, every content of the file system, every output path and format, every moment of the run", "why_tests_cant": "any number of files with overlapping definitions, in any order; a failure or an interruption may come at any file", "anchors": ["cmakelang/genparsers.py:main", "cmakelang/genparsers.py:process_file", "cmakelang/genparsers.py:process_tree"]}
{"id": "C96", "title": "Arguments parsed by hand are reported once per definition", "statement": "For every function or macro definition that does not call cmake_parse_arguments and in which some foreach or while loop over ${ARGN} has more conditions that compare the loop variable with STREQUAL or MATCHES than the configured number, cmake-lint reports C0201 exactly once, at the start of one of these loops. It reports C0201 nowhere else. Definitions within definitions count on their own and as part of the outer ones.", "quantifier": "every text without byte-order mark, pragmas and format switches glued to words that is linted to the end, every command database, every limit and other option; with pragmas and other text the reports are still among these", "why_tests_cant": "the search goes through the whole body in breadth-first order, through blocks nested to any depth, and stops at the first loop; whether a loop counts depends on all the conditions nested in it", "anchors": ["cmakelang/lint/basic_checker.py:LintChecker.check_for_custom_parse_logic", "cmakelang/lint/basic_checker.py:find_statements_in_subtree", "cmakelang/lint/basic_checker.py:find_nodes_in_subtree", "cmakelang/lint/basic_checker.py:loop_contains_argn"]}
{"id": "C97", "title": "Keywords given twice are reported where they are repeated", "statement": "cmake-lint reports E1122 exactly once for every keyword that already came in the same list of arguments of a command, in any case of letters, at the place of the repetition and with the keyword in capitals. AND, OR, COMMAND, PATTERN and REGEX may be repeated, and the same keyword in different lists (as DESTINATION after RUNTIME and after LIBRARY) is no repetition.", "quantifier": "every text without byte-order mark, pragmas and format switches glued to words that is linted to the end, every command database and user specification, all options that do not disable E1122", "why_tests_cant": "lists of arguments nest to any depth and hold any number of keywords between the two; commands stand in blocks nested to any depth", "anchors": ["cmakelang/lint/basic_checker.py:LintChecker.check_arggroup", "cmakelang/lint/basic_checker.py:LintChecker.check_tree", "cmakelang/lint/lint_util.py:FileContext"]}
{"id": "C98", "title": "Groups of arguments with too few words are reported", "statement": "Every group of positional arguments in a command that has at least one word but fewer than were declared for it is reported as E1120 at its first word, as often as there are such groups; a group without words is reported without a place. A file, list or add_custom_command without any word, not declared by the user, is reported at what follows its opening parenthesis. Every other report with this code is about a set whose CACHE words are missing. In files where file, list, add_custom_command and set do not occur, or are declared by the user, only the groups are reported. (Another command given no words at all has no group, so nothing is reported: proved with a witness.)", "quantifier": "every text without byte-order mark, pragmas and format switches glued to words that is linted to the end, every command database and user specification, all options that do not disable E1120", "why_tests_cant": "groups nest in keywords to any depth, and the number of words comes from declarations that the user may write", "anchors": ["cmakelang/lint/basic_checker.py:LintChecker.check_positional_group", "cmakelang/parse/util.py:get_min_npargs", "cmakelang/parse/argument_nodes.py:PositionalGroupNode", "cmakelang/parse/funs/file.py:parse_file", "cmakelang/parse/funs/list.py:parse_list", "cmakelang/parse/funs/add_xxx.py:parse_add_custom_command", "cmakelang/parse/funs/set.py:parse_set"]}
{"id": "C99", "title": "Mistakes in cmake-lint pragmas are reported", "statement": "In a file whose pragmas stand at top level, each word of a pragma comment that is no assignment, that assigns to something else than disable, or that gives disable a code that does not exist, is reported on the line of the comment (E0011 or E0012, naming the word, the key or the code), unless that report is itself disabled, hidden by a pragma, or on the last line of the file. Wherever pragmas stand, every E0011 and E0012 reported is about such a word of a pragma comment in the file, with its line. (The column is that of the first word, even for later words: proved with a witness.)", "quantifier": "every text without byte-order mark and format switches glued to words that is linted to the end, every command database, all options", "why_tests_cant": "pragmas may hold any number of words with any spelling, at any place of the file", "anchors": ["cmakelang/lint/basic_checker.py:LintChecker.parse_pragmas_from_token", "cmakelang/lint/basic_checker.py:LintChecker.parse_pragmas_from_comment", "cmakelang/lint/basic_checker.py:LintChecker.check_body", "cmakelang/lint/basic_checker.py:LintChecker.check_comment"]}
{"id": "C100", "title": "Every report has a documented, enabled code", "statement": "Each record that cmake-lint reports for a file has one of the codes of its documentation, a code that is not disabled by the configuration, and as many arguments as the message of that code needs. Three documented codes are never reported, whatever the file and the options: C0102 (black-listed name), R0914 (too many local variables) and W0104 (deprecated command).", "quantifier": "every text that is linted to the end, every command database and user specification, all options", "why_tests_cant": "a test sees the codes of the files it is given; that no file gives another code, or one of the three, is a statement about all files", "anchors": ["cmakelang/lint/lintdb.py:LINT_DB", "cmakelang/lint/lint_util.py:FileContext.record_lint", "cmakelang/lint/basic_checker.py:LintChecker", "cmakelang/lint/__main__.py:process_file"]}
