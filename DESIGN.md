# Formal model of cmakelang (cmake-format / cmake-lint) in Lean 4

Source: `/repo/cmakelang` at the pinned commit, read as text, never run.
Properties: `properties.jsonl`.  Claims: `MANIFEST.json`.  Lean project: `lean/`.
Edits of the model used to test the theorems: `seeded/LOG.jsonl`.

## 1. Layout of the development

| Lean modules | models | property theorems |
|---|---|---|
| `Py` | Python string/list primitives used by the code (`split`, `strip`, `upper`, `count`, ...) | |
| `Lex`, `LexLemmas` | `lex/__init__.py`: the scanner, `tokenize`, `Token`, `SourceLocation` | `Props.Lex` |
| `Text` | `formatter.py` text passes: line endings, tabs, letter case | `Props.Text` |
| `ArgSort` | `formatter.py` `sort_arguments` | `Props.ArgSort` |
| `Config`, `Schema`, `ConfigLemmas` | `__main__.py` merge / include / find, `config_util.py`, `configuration.py` (all options of the tool) | `Props.Config` |
| `Main` | `format/__main__.py` `onefile_main` / `inner_main` as a step machine over a filesystem | `Props.Main` |
| `Lint`, `LintLemmas` | `lint/lint_util.py`, `lint/__main__.py`, `basic_checker.py` per-line checks | `Props.Lint`, `Props.LintLines`, `Props.LintMain` |
| `LintTree`, `LintVars`, `LintVisit`, `LintSeq`, `LintFlat`, `LintCount`, `LintDead`, `LintLinks`, `LintReport`, `LintParams` | `basic_checker.py`: the checks of the parse tree and of the tokens, the table of built-in variables | `Props.LintTree`, `Props.LintParams` |
| `LintParser`, `LintMade`, `LintParserReport`, `LintEmpty` | `parse/funs/*.py`, `argument_nodes.py` `check_required_kwargs`: what the parser itself records as lint | `Props.LintForms` |
| `Tree`, `Parse`, `ParseLemmas`, `ParseTokens`, `ParseFuel`, `ParseMono`, `ParseSpec`, `ParseShape`, `ParseNeat`, `ParseSpread`, `ParseSwitch` | `parse/*.py`: tree nodes, body, statement, argument groups and their parsers | `Props.Parse` |
| `LocalSpec`, `Local`, `LocalJobs`, `LocalTop`, `LocalDb` | no code: what a parse function reads does not depend on what follows | `Props.Local` |
| `CmdSpec`, `ParseFuns`, `SpecTables`, `ParseDb`, `SpecLemmas`, `DbLemmas` | `parse/util.py` `CommandSpec`, `parse_pspec`, `apply_overrides`; `parse/funs/*.py`: every parse function and dispatcher of the tool; `command_specs` tables of `standard_funs.py` and `module_funs` (346 commands, generated from the source text) | `Props.ParseDb` |
| `Wrap`, `Markup`, `MarkupSpec`, `WrapLemmas`, `MarkupLines` | `markup.py`, `common.stable_wrap`, the part of `textwrap` it uses | `Props.Markup`, `Props.MarkupLists` |
| `Layout`, `LayoutLemmas`, `Pieces`, `Chain`, `BoxTree`, `Cover`, `Framed`, `Width`, `Stack`, `Calm`, `Switch`, `SwitchText`, `Relex`, `RelexWeave`, `RelexPieces`, `Trail`, `TrailPieces`, `Twin`, `TwinTree`, `ParseSeg`, `TwinRoot`, `Again` | `format/formatter.py`: layout nodes, passes, `_reflow` of every node type, `layout_tree` | `Props.Layout`, `Props.Width`, `Props.Blocks`, `Props.Switch`, `Props.Relex`, `Props.Endings`, `Props.Again` |
| `Write` | `format/formatter.py`: `CursorFile`, `write` of every node type, `write_tree`; `process_file` | `Props.Write`, `Props.Layout` |
| `Render` | `render.py` `dump_html`, `get_html` without the page template | `Props.Render` |
| `Gen`, `GenRefs`, `GenArgs`, `GenFind`, `GenTable`, `GenSet`, `GenOrder`, `GenMain` | `genparsers.py`: the table of commands generated from the definitions of a file; the loop over the files | `Props.Gen`, `Props.GenOrder`, `Props.GenMain` |
| `Tabs` | the last step of `process_file` as seen by the lexer | `Props.Tabs` |
| `LintDoc`, `LintSpacing`, `LintGaps`, `LintGapText`, `LintSpaced`, `LintIndent`, `LintNames`, `LintList`, `LintSet`, `LintVarNames`, `LintRefs`, `LintHalf`, `LintPragma`, `LintHand`, `LintKeywords`, `LintShort` | lemmas about single checks of `basic_checker.py` | `Props.LintDoc`, `Props.LintSpacing`, `Props.LintIndent`, `Props.LintNames`, `Props.LintVarNames`, `Props.LintRefs`, `Props.LintPragma`, `Props.LintHand`, `Props.LintKeywords`, `Props.LintShort`, `Props.LintMistakes`, `Props.LintRequired`, `Props.LintCodes` |
| `LintOk`, `LintClosed`, `LintFull`, `LintFine`, `LintCounted` | lemmas: when the checks come to an end | `Props.LintDone`, `Props.LintOutput` |
| `Groups`, `WordGroups` | lemmas: how the words of a command are grouped | `Props.Groups`, `Props.WordGroups` |
| `ParseBlank`, `ParseSame`, `ParseSameAll`, `ParseSameJobs`, `ParseSameMore`, `SameDb` | lemmas: the parser on texts that differ in blanks and letter case | `Props.Same` |
| `Notes`, `NotesSame`, `NotesSeg`, `NotesText`, `NotesWalk`, `NotesProse` | lemmas: comments between the commands, in the parser and in the output | `Props.Again` |
| `Arrange` | lemmas: where `reflow` puts the parts | `Props.Arrange` |
| `Annotate` | `annotate.py`: the command line | `Props.Annotate` |
| `Ctest` | `ctest_to.py` without the callbacks, which are never reached | `Props.Ctest` |
| `Dump` | `--dump lex`, `--dump parse` | `Props.Dump` |
| `DumpConfig`, `PyBlocks` | `--dump-config` and the reading of what it writes | `Props.DumpConfig`, `Props.DumpOptions`, `Props.Options` |
| `LayoutSpec`, `OutlineSpec`, `SwitchSpec`, `DbSpec`, `ArrangeSpec`, `FormSpec`, `GroupSpec`, `WordSpec`, `SameSpec`, `LintSpec`, `LintFormSpec`, `LintDocSpec`, `LintDoneSpec`, `LintHandSpec`, `LintKeywordsSpec`, `LintNameSpec`, `LintShortSpec`, `LintVarSpec` | no code: the specifications of the layout, outline and lint theorems | |

Every definition of a model module carries the file and lines it models, and says where it
simplifies.  Property theorems live in `Verif/Props/*`, apart from the helper lemmas; each
has an English restatement, a specification that does not use the model's helpers where
that is possible, and an `example` showing that a concrete non-trivial case meets its
hypotheses.

## 2. Representation choices

* A Python `str` is a `List Char`.  Lone surrogates (possible in Python, not producible by
  decoding a utf-8 file) are outside the model.
* Byte offsets use the utf-8 length of a character (`Char.utf8Size`).
* Exceptions are values (`Except Err a`), one constructor per exception class that callers
  can distinguish.
* Loops become structural recursion, or recursion on an explicit `fuel` with the outcome
  `outOfFuel` that no theorem confuses with success (`ParseMono`: more fuel never changes a
  result; `ParseFuel`: how much is enough).
* Mutation of argument lists (`tokens.pop(0)`) becomes returning the rest of the list.
* A layout node is a function (path, position, parent pass) to its new state: the code
  keeps state in the node between passes, but every `_reflow` assigns all of it anew, and
  the model's nodes therefore carry no state from earlier passes.
* External behaviour (filesystem, argparse, yaml/json, user-supplied regular expressions)
  enters as parameters or as an abstract state machine.

## 3. Trusted base

* Lean 4.33.0's kernel (every module is replayed by `vcheck`).
* Axioms: every theorem depends on at most `propext`, `Classical.choice` and `Quot.sound`
  (`#print axioms`, and the gate's own check).  No axiom is declared, there is no `sorry`,
  no `native_decide`, no `bv_decide`.
* The hand translation from Python to Lean.  The code cannot be run here, so its only check
  is reading; every definition cites the lines it models.  The expected results in the
  repository's own tests were used as a cross-check of the model, by evaluation outside the
  development: the model reproduces all 155 formatted outputs of
  `command_tests/*.cmake`, the 21 expected parse trees and the 19 expected layout trees.
  The tables in `SpecTables` were transcribed by a script from the source text.
* Python semantics assumed: `re.Scanner` tries the phrases in order at each position and
  matches without the UNICODE flag (so `\s` is the six ASCII blanks); `str.upper/lower`
  modelled on ASCII letters only; `textwrap` as in CPython 3 with the options the code
  passes; `math.ceil(math.log10(n))` without floating-point error; `os.rename` atomic.

## 4. Plan per property

| id | model | proof |
|---|---|---|
| C01-C06 | `Lex.tokenize`: one matcher function per scanner rule, first match wins | every matcher returns a non-empty prefix, the catch-all covers the rest; induction on the input length |
| C07 | fuel-indexed parser; tokens of the tree | induction on fuel over all mutually recursive parse functions; the tuple parser's loss as a `decide` witness |
| C08 | same; `outOfFuel` unreachable with fuel linear in the tokens | measure; divergence witness by showing that the state repeats |
| C09-C11, C50 | same | invariants of the parse functions |
| C12-C14 | lexer, parser, layout and writer composed (`processFile`) | the layout of every node kind yields pieces in order, at increasing positions, with line ends after comments (`Placed`, `Chain`); the writer prints such pieces at their places; the pieces spell the tokens (`Cover`) |
| C15 | writer as a state machine over rows and columns | induction on the sequence of writes |
| C16 | extents recorded by each node | every piece ends within the recorded extent; valid means extent within line_width (`Width`) |
| C17 | pass loop | equivalence with "first acceptable of the permitted passes" |
| C18 | writer with on/off state | the blocks of the outline are written one after the other (`Switch`); byte offsets of tokens give the copied text; induction over the events, region by region (`SwitchText`) |
| C19-C21 | `normalizeLineEndings`, `detectLineEndings`, `replaceWithTabs` | induction on the text |
| C22 | `sortArguments` with a stable sort | `List.Perm`, sortedness, idempotence |
| C23, C34, C46 | decision functions | case analysis |
| C24-C27, C52, C54 | `textwrap` chunks, greedy fill, `stable_wrap` loop, markup state machine | greedy fill is a fixpoint of itself; induction on lines |
| C28, C29, C53 | outline of the parse tree (blocks with depth, blank lines) | bodies and flow blocks stack the blocks of their outline (`Stack`), the outline has no two blank lines in a row (`Calm`) |
| C30-C33 | association-list mappings, include queue, ancestor search | induction |
| C35-C39 | filesystem step machine | invariant over every prefix of the step trace |
| C40-C44, C51 | lint context as a state machine | refinement to a simple interval specification |
| C45 | `dumpHtml` | structural induction on the tree |
| C55, C56 | command declarations as trees; the lookup table built from them | last declaration wins; induction on the path of an override |
| C57 | `Lex.tokenize` applied to the output of `processFile` | the text of each piece lexes as its token whatever stands around it (`Relex`); induction over the woven pieces (`RelexWeave`) |
| C58, rest of C20 | same pieces as C12-C14 | every piece starts and ends with ink and has no blank before a line feed: comment lines because wrapping runs to a fixpoint (`Trail`), tokens by their shape; the gaps between pieces are line feeds, then spaces (`TrailPieces`) |
| C59 | the parser with all command tables | simulation of two runs on lists that agree up to blanks and letter case, by induction on the fuel over all mutually recursive parse functions (`ParseSame*`); every registered parser satisfies the condition of the simulation (`SameDb`) |
| C60 | `parse` of the output of `processFile` | C57 says which tokens the output has; they and the tokens of the input are read alike if the comments, taken as groups, are in the same places (`Notes`, `NotesSame`), which is read off the rows and columns of the output block by block (`NotesSeg`, `NotesText`, `NotesWalk`) |
| C61 | `processFile` applied to its own output | the two parse trees are equal up to blanks (C60); the blanks of the output are read off its rows, statement by statement (`ParseSeg`, `TwinTree`), so the two layout trees are twins, boxes that differ in nothing the layout looks at; twins have the same layout (`Twin`, `TwinRoot`). A comment counts as a twin if formatting its lines again gives the same lines; that is proved for comments of plain sentences and for comments that are left alone (`NotesProse`) |
| C62 | `parse` of a text; marks read off the argument tree of a statement (`GroupSpec`) | `Command.place` goes through the words once; induction on the words for positional groups, on the groups for argument trees, then over all jobs of the parser (`Groups`); the parser is run on the tokens between the parentheses of the command, so comments elsewhere do not matter (`parse_reads`); declarations of the user are turned into a `Command` directly |
| C63 | the dispatching parse functions | the table of forms (`FormSpec`) is written out without the code; every dispatcher is shown to look at the deciding word only |
| C64-C66 | the checks of the tree as a traversal that yields calls of the lint context | the commands of the tree are listed in the order of the text together with the blocks around them (`LintFlat`: the ancestors of a statement are the open blocks); checks on bodies and blocks are summed up over the same list (`LintDead.tree_link`); without pragmas the report is the sorted list of records (`LintReport`) |
| C67 | the same model | the parameters of a definition are the words of the text between its name and its closing parenthesis (`LintParams.stmt_args`, from the shape of parsed trees); the loop over them becomes a list with the earlier words of each (`checkParams_eq`) |
| C68 | the parser with all command tables | for every job: two runs on lists that agree up to the next token with a meaning behind the place where the first stops agree (`LocalJobs.args_loc`, induction on the fuel); commands, blocks and whole files on top of it (`LocalTop`); every registered dispatcher looks at no more tokens than the table says (`LocalDb`) |
| C69 | `checkBasics` applied to the output of `processFile` | C58 gives the lines and their ends, C16 the width; the rest are the line checks one by one |
| C70 | `process_tree` of genparsers on the tree of the parser | the queue finds the same statements as a walk through the tree (`GenFind.find_perm`); each is paired with its place in the list of commands (`tree_defs`); the first group of a definition holds all its words (`GenArgs.firstWords_eq`) |
| C71 | the same, and `CommandSpec` | the loop over the body as a fold over what is found; references are replaced by their values (`GenRefs`); the declarations are then read by the model of the configuration (C55); the queue yields what is directly in the body first (`GenOrder.direct_first`), and the tree of a plain `set` has two groups (`GenSet.found_plain`) |
| C72 | `replace_varrefs` with fuel | values without dollar signs make every round remove one; the counterexample has an invariant of two alternating shapes |
| C73 | `process_file`, the last step | both runs share all steps but the last |
| C74 | `replace_with_tabs` after the writer | a character-wise description of re-indenting (`Tabs.AtStart`); texts whose lines are flush stay whole, so the output is the same texts with other blanks between them (`Loose`), and these are read back text by text (`lexes_loose`) |
| C75 | the records of the parser, read off the finished tree of each command (`LintParser`) | the deciding token is the first word after the parenthesis (`given_first`); the table of words is written out in `LintFormSpec`; no other check uses these codes (`tree_silent`), so the report holds what the parser recorded |
| C76 | the same | the children of the arguments of such a command are blanks, comments and groups, and a group starts with the token it is read from (`LintEmpty.empty_kids`) |
| C77 | the same; which words open a group is said by the specifications of C63 and C94 | a keyword of a group is a word of the command; for commands without comments the keywords of the tree are the marks that open keyword groups, so the report is exactly what is missing; a keyword that is an argument of another one does not count |
| C78 | the same; a message with too few arguments is an exception | the records made before the end of parsing are not suppressed by pragmas |
| C79 | `LintTree.checkParseTree` on the tree of the text; where a variable goes is said on the tokens between the parentheses and the open blocks (`LintNameSpec`) | the calls of the walk are split by node; the children of a `set` or `list` tree without parentheses have its words in order, whatever comments and switches are between them (a group stops at a comment only if the next argument would stop it); parentheses inside `set` and `list` are excluded (false there: `nested_lint`, `nested_spec`) |
| C80 | the same; the regular expressions as a table of beginnings and ends (`LintVars`), the search for references as a recursion over the text (`LintVarSpec`) | references cannot overlap, so the search from left to right finds every one; the breadth-first search for commands is a permutation of the commands; the condition of C79 on `set` and `list` |
| C81 | the whole of `lintText`; what a file must not contain is said on its text and commands (`LintDoneSpec`, `Props.LintDone.Sound`) | bodies are not empty and blocks are closed (inductions over the parser, `LintFull`, `LintClosed`), so every access by index in the checks succeeds (`LintOk`); every record has a known code and enough arguments for its message (`LintFine`); whole references leave nothing for the failing branch of `check_tokens` (`LintHalf`); the lexer never reads a word right behind a command (`LintSpaced`); the conditions of a loop can be counted unless one is the loop variable alone (`loops_count`, with the correspondence of C96); missing: loops over `${ARGN}` outside of definitions, or next to `cmake_parse_arguments`, are harmless but not exempt |
| C82 | `checkSpacing` in `LintTree`; the expected records are said on the text: the blanks before the byte where a command starts (`LintGapText`: `textBefore`, `newlinesBefore`, `spacingRecs`) | an induction over the parser says what stands before every command and block of a body: nothing, or one whitespace node with all the blanks there (`LintGaps`), because the lexer reads no word right behind a parenthesis, a comment, a switch or an at-word (`text_behind`); counting blocks with their opening commands turns bodies into the list of commands (`LintSpacing`) |
| C47-C49 | field registry as an association list; section stack | induction |
| C83 | `ctest_to.py` up to the first use of the parser context, in `Ctest`: the loop over the directories, reading a file, the loop of the parser over a body with a dictionary for a context (every command ends in `AttributeError`), the choice of the output | induction over the rounds of the parser's loop: it ends well exactly when every token is a blank, a comment, a switch or a byte-order mark (`body_iff`); so the callbacks never run and the list of tests stays empty |
| C84 | the reflow functions of `formatter.py` in `Layout`; the specification `ArrangeSpec` speaks of the laid out tree only: positions, where the last text of a part ends, the options | structural induction over the layout of a file (`Arrange`): what every pass of every node leaves behind, then the last pass that ran; `reflow_arranged` |
| C85 | as C84, with `strict` set to the validity that is reported | as C84; a valid layout is one whose every part was accepted by the checks of its pass. `always_wrap` is false inside blocks (`always_wrap_in_block`) |
| C86 | `prefixComment`, `emptyComment`, `checkDoc` in `LintTree`; the expected records are said on the bodies of the parse tree: a definition, the blanks before it and the comment before those (`LintDocSpec`) | induction over the parts of a body (`LintDoc`); `every_definition` says that the definitions looked at are all the `function` and `macro` commands of the file, `blank_line_before` speaks of the text alone |
| C87 | `Dump`: `repr` of strings (which characters are printable is a parameter), the labels of tokens and nodes, the drawing of a tree, the two dumps | `repr` is injective with any text after it (induction over the string, the escapes are told apart); a drawing is read back by induction over the tree: a line of a subtree starts with the indentation of its parent |
| C88 | `Annotate`: options, configuration, the three formats, the system calls as in `Main`; parameters: reading of configuration files, the codec, jinja | the calls are shown to touch the output only, hence every prefix; the content after a successful run by following the calls; partial because the html is that of C45 (no `<` in the text) |
| C89 | `DumpConfig`: the three dump formats and `dump_config`; `PyBlocks`: a small separate reader of the blocks and assignments of a Python configuration file; parameters: wrapping of help texts, `pprint`, and the reading of a single value | the text is split into lines and read by induction over sections and options, the assignments are run with `ExecGlobal`; json and yaml by the dictionary alone; partial because of the options that are dropped (`builtin_lost`); `DumpOptions`: the values in the dump are those the formatter would use (C91), by comparing the two ways in which files and command line are merged |
| C90 | the lint driver, `checkBody`, `checkItems`, `pragmas` and `getLint`; parameters: as for C64 | the children of the file follow one another in the text, so the suppressions they add have increasing lines; the active set at a line is computed by induction over the children, and compared with the comments that name the code (partial: pragmas inside of commands and blocks excluded; codes checked for a body as a whole only before the last line) |
| C91 | `getArgdict`, `fileConfig`, `construct`, `legacyConsume`; the class is any class without ambiguous names (the tool's own table is checked); parameters: reading of the configuration files, argparse | the object after both readings is written as a map over the class, then every option is looked up |
| C92 | `checkTree`, `checkToken`, `checkIndentation`; parameters: as for C64 | the traversal is a scan over the tokens with their numbers of bodies (mutual induction); by induction over the sequences of statements and blocks of the parser (`Seq`) the bodies around a token are the open blocks of the commands before it |
| C93 | `checkTokens`, `mockVarrefs`, `searchUnescaped`, `nameRun`; parameters: as for C75 | the searches return the first place with an even number of backslashes before it (induction over the text with the parity of the backslashes); replacing references is a reduction to a normal form (`Reduced`), as every round makes the text shorter; then induction over the tokens |
| C94 | the loops of `parse_set`, `parse_foreach_in`, `parse_foreach_standard`, `parse_add_custom_target`, the source lists, `parse_file_write`, `parse_empty` | `WordSpec` says word by word which group a word is in (`sections`), without reference to the parsers; induction over the rounds of each loop, one group at a time (`seg_pos`, `seg_key`, `seg_first`); the closing parenthesis ends every group, so nothing behind the command matters |
| C95 | `GenMain.main`: the loop over the files with the two variables it leaves to the next round, and the calls on the file system; decoding and the serialisers are parameters | the loop keeps the invariant that the dictionary merges the tables so far; all calls of the loop are reads |
| C96 | `loopsOverArgn`, `countConds`, `checkLoops`, `checkCustomParser` on the tree; `LintHandSpec` says on the commands of a file which loops parse arguments by hand | the breadth-first queue holds exactly the nodes of the tree with their parents (`mem_bfs`); a loop command stands only first in its block (`seq_shaped`), so loops in the tree are loops among the commands; conditions lie only in commands (`conditions_stmts`); the choice of one loop per definition survives permutations (`OneOfEach.perm`) |
| C97 | `checkKeywords` on every list of arguments of the tree; `LintKeywordsSpec` lists the keywords of a command, list by list, and the repeated ones | the list of keywords seen agrees with the keywords before, apart from those that may be repeated (`keywords_again`); lists of arguments lie only in commands (`keywordLists_stmts`); the records with this code that the parser makes for `add_custom_target` have no argument for the message, so there are none if the run ends (`parser_args`, `run_args`) |
| C98 | `minArgs`, `checkPositional` on every positional group of the tree; `LintShortSpec` lists the short groups of a command | `minArgs` agrees with the declared number (`minArgs_fewest`); positional groups lie only in commands (`shortGroups_stmts`); the report is made of the records of the parser and of the tree (`report_split`), and only four commands record this code in the parser (`recorder_choosy`), three of them only without words (`stmt_bare`), `set` with the name of what is missing; finding: `add_dependencies()` has no group and is not reported (`demo_short`) |
| C99 | `pragmaItems`, `pragmaIds`, `checkBodyComment`, `checkComment`; `Wrong` and `Mistake` in `Props/LintMistakes` say what is wrong with a word of a pragma, by its place in the text of the comment | induction over the words, both ways (`items_sound`, `items_complete`); soundness over the whole tree (`node_recs`), completeness through `pragma_exact_partial` for pragmas at top level; finding: the reported column moves only past words without `=`, so later words carry the column of an earlier one (`demo_lint`) |
| C100 | `Ctx.call`, `lintIds`, `fieldsOf`, and all checks that make records | invariant of the calls on the lint context (`run_shown`), kept by sorting and hiding; for the three unused codes the tables of codes per check (`node_unused`) and the bound of the report by the records made (`report_le`) |

## 5. What is not modelled

* argparse, logging, yaml/json/exec of config files, jinja, `pprint`, `textwrap`: parameters or omitted. For the
  Python dump (C89) only the blocks and assignments are read by the model; that Python reads a value as
  `pprint` writes it is an assumption of the theorems (`Readable`).
* `str.upper`/`lower` outside ASCII: the model changes ASCII letters only.
* `contrib`, docs, tests, build tooling, the callbacks and the printing of
  `ctest_to` (never reached, C83), the output formats of `genparsers` and the names of the files that it prints.
* What the parser itself records as lint (E1120, E1121, E1122, E1125, E1126, C0113, C0114, W0106) is a
  parameter of `checkFile`, of which C64 to C67 assume only these codes; `LintParser.parserLint` models it
  and meets the assumption (`Props.LintForms.parser_lint`).  The code records while it parses; the model
  reads the records off the finished tree.
* The regular expressions of the lint options (`reMatch`, a parameter); `\w` and letter case in the
  variable checks are ASCII.
* Resource limits (recursion depth, memory), warnings printed to the log.

## 6. Disagreements between code and intent found while modelling

Names in brackets are machine-checked witnesses.

Lexer
* never fails, but format switches may span lines [`sentinel_spans_lines`]; a word may
  start with one of ``[ \ ] ^ ` `` because the class is written `A-z`
  [`word_need_not_be_identifier`].
* with a byte-order mark the offsets are relative to the text after it [`bom_tokens`], while
  the writer reads the whole text: switched-off regions are copied shifted by three bytes [`region_after_bom`].

Parser
* a tuple element glued to a format switch is dropped [`glued_switch_drops_token`]; comments
  inside tuples move behind the tuple [`tuple_moves_comments`]; the byte-order mark is dropped.
* `if(a AND#c` never ends [`parse_diverges`].
* an exact arity met by `)` at once (`site_name()`) raises InternalError; `set()` and
  `foreach(x)` AssertionError, but `foreach(x )` is read [`foreach_depends_on_a_blank`]; `add_library(foo)` as the last statement AttributeError [`add_library_crash`];
  an unclosed `if` fails in the layout with AssertionError, other unclosed blocks with
  IndexError.
* whether `add_library()` is accepted depends on the name of the next command
  [`next_command_matters`]; an `if` without `endif` is accepted at the end of a file
  [`open_block_matters`];
* the column of a report about a pragma is that of an earlier word, because it moves only past
  words without `=` [`LintMistakes.demo_lint`];
* with CR LF line ends cmake-lint counts the carriage return, so it rejects lines as wide as
  cmake-format may make them [`carriage_return_counts`];
* switches inside `add_library`/`add_executable` are taken for arguments; dispatchers look
  at tokens past the statement's `)`; `parse_pspec` ignores the arity of dictionaries;
  `build_command` and `cmake_parse_arguments` compare method objects.
* a declaration of `if`, `elseif` or `while` is ignored [`if_conditional`]; a dictionary as
  `pargs` loses its number of arguments [`dict_pargs_loses_nargs`]; `override_spec` cannot
  address the tool's own commands [`override_builtin`] and lets an IndexError escape
  [`override_index`]; a keyword spelled COMMAND is always parsed as a shell command.
* the table of `add_library` has `UNKNOWN` misspelled, so it is not taken for a flag
  [`unknown_library_misspelled`]; a keyword declared to take no words (or an exact number) that is
  followed by an ordinary word (or by none) ends in InternalError; an exact number of positional
  words swallows keywords.
* explicit trailing comments (`#<`) separated by blank lines are joined.

Layout and writer
* a trailing comment that mixes a bracket comment and line comments drops text or swallows
  arguments [`comment_swallows_argument`]; two unaligned comments between arguments are put
  on one line [`comments_merged`].
* wrapping can put `cmake-format: off` at the start of a comment line
  [`reflow_invents_directive`].
* a statement may contain an empty line: wrapped empty argument lists, over-wide trailing
  comments [`blank_line_in_statement`].
* a layout reported as valid may have longer lines in switched-off parts
  [`switched_off_too_wide`].
* `on` inside a statement that starts while switched off is never seen, and `off` without `on`
  loses the rest [`region_unclosed`]; two `off` in a row lose the text between
  [`region_two_offs`]; a region from inside a statement to its outside doubles the parenthesis
  [`region_from_statement`].
* blank lines at the start of a file shrink with every run [`blank_start_shrinks`].
* blank lines made of bare carriage returns are not counted.
* gaps between tokens change what is read back: `foo('a b'#c` turns two arguments into one
  [`quote_appears`], the comment `##[[` becomes a bracket comment [`opener_appears`], `C:\foo` is
  written `C: \foo` [`path_split`], a wrapped comment can become a switch [`switch_appears`];
  `a\` before a line end is joined with the next line; upper-casing a keyword also changes
  its escapes (`\t`).
* an argument that ends in an escaped blank can end a line [`escaped_blank_ends_line`].
* a canonical spelling longer than the written name makes the writer fail its assertion.

Html
* text is not escaped [`html_not_escaped`].

Markup
* eight rounds of wrapping are not always enough [`reflow_fails`]; deep lists in narrow
  comments fail [`nested_list_fails`]; a number starting a continuation line is taken for a
  marker [`enum_loses_number`]; numbers make lines exceed the width [`enum_too_wide`]; the
  last number of ten entries sticks out [`ten_entries`]; a list of eleven entries is aligned by
  the first run and loses its last entries in the second [`eleven_items_merge`].  Two comments below
  one another in different columns are aligned by the first run and merged by the second
  [`aligned_comments_merge`].

Configuration and front end
* includes override the including file; a cycle of includes loops [`load_diverges`];
  command-line options apply to the first file only [`cli_dropped_for_later_files`];
  the temporary file of an in-place run overwrites a file of that name
  [`temp_file_destroyed`]; a failing rename falls back to a copy [`move_fallback_torn`].

Tabs
* `use_tabchars` also re-indents the lines within multi-line strings and bracket arguments, so their value
  changes [`tabs_change_argument`], and switched-off regions [`tabs_change_region`].

Lint
* nested pragmas are lost [`nested_pragma_lost`]; a path given twice is counted twice
  [`repeated_path_duplicates`]; standard input and `line_ending = auto` always end in
  status 2 [`stdin_decorated_fails`, `auto_fails`]; windows endings are always flagged
  [`windows_always_flagged`].
* the checks of the tree crash on an empty file [`crash_on_empty`], on `if(arg)` inside `foreach(arg
  ${ARGN})` of a function [`crash_on_short_condition`], on `list()` [`crash_on_list`], on a `set` with only a comment in it and on `list(SORT` with a comment before
  `ORDER` [`failing_fail`], on `"$foo ${CMAKE_BINARY_DIR"` [`crash_on_half_reference`] and on `set` in
  an `if` that is not closed [`crash_on_unclosed`]; a `break` in a function defined inside a loop is
  accepted [`break_in_function`].
* a `build_command` with an argument, or with a command after it, ends cmake-lint with an IndexError,
  because the message of W0106 lacks an argument [`build_command_crashes`, `crash_on_next`]; so does a
  positional argument after the keywords of `add_custom_target` [`crash_on_stray`].

Generating declarations
* replacing references to variables need not end [`generation_hangs`]; a function also gets the keywords
  of the functions defined inside it [`nested_function`]; in the form with `PARSE_ARGV` the wrong arguments
  are read [`parse_argv`]; a call or a `set` in a block is read after those directly in the body that follow it
  [`sample_table`]; the number of positional arguments that is written is not used when the
  declarations are loaded (`generated_loads`: it is replaced by "*").
* `ctest-to` stops with `AttributeError` on every test file that has a command, because it hands the parser a
  dictionary of callbacks for a context; without `--json` or `--xml` it prints nothing, because the default of
  `getattr(args, "out_type", "json")` is never used (C83).
* `always_wrap` is documented as a list of command names, but it is compared with the path of
  a node, and inside `if()` and the other blocks the path begins with `FlowControlNode`: a
  listed command is not wrapped there (C85, `always_wrap_in_block`).
* A docstring written as a bracket comment is reported as empty (C0112) whatever it says: the test for
  emptiness collects line comments only (C86, `bracket_comment_is_empty`).
* `cmake-annotate -o FILE FILE` empties the file before reading it, and any error leaves an empty output
  file (C88, `same_file_lost`, `failure_empties`).
* `cmake-annotate -c PATH` passes the path where a list of paths is expected, so every character of it is
  taken as a path: the option fails for any usual path (C88, `config_option_fails`).
* `--dump-config` removes every command with built-in options from `per_command` before it dumps, so the
  options the user gave for `ExternalProject_Add` or `FetchContent_Declare` are lost (C89, `builtin_lost`).
* A lint pragma does not reach the last line of the file: the suppression ends at the line of the last token, and that token
  is the end of the last line. A record on that line is reported in spite of the pragma (C90, `last_line_not_hidden`).
* The check of the indentation starts from blanks: a line without any is never reported, however deep it should stand
  (C92, `flush_left_unseen`); an empty line with blanks is (`blank_line_seen`), and so are the later lines of a trailing
  comment that cmake-format itself aligns (`aligned_comment_seen`).
* A reference without its closing brace is reported as one without its opening sign, since `{NAME` matches first; the
  message about a missing closing brace shows the text of some earlier word (C93, `demo_lint`), or fails if there is none
  (`crash_on_half_reference`).
* `cmake-genparsers` passes over an input that cannot be decoded, unless it is the first: the text of the file before is
  processed once more, and the exit status is 0 (C95, `undecodable_passed_over`). An input that cannot be opened ends it
  with an exception instead of the exit status 1 that is set for it.
