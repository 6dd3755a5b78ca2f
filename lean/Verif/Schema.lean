import Verif.Config

/-!
# The configuration class of the tool

The sections and options of `Configuration` with their defaults, configuration.py:13-454,
in declaration order.
-/

namespace Verif.Config
open Verif Py

/-- `ParseConfig`, configuration.py:377. -/
def parseConfig : Section :=
  { name := S "parse"
    fields :=
      [{ name := S "additional_commands", default := .dict [(S "foo", .dict [(S "flags", .list [.str (S "BAR"), .str (S "BAZ")]), (S "kwargs", .dict [(S "HEADERS", .str (S "*")), (S "SOURCES", .str (S "*")), (S "DEPENDS", .str (S "*"))])])] },
       { name := S "override_spec", default := .dict [] },
       { name := S "vartags", default := .list [] },
       { name := S "proptags", default := .list [] }] }

/-- `FormattingConfig`, configuration.py:192. -/
def formattingConfig : Section :=
  { name := S "format"
    fields :=
      [{ name := S "disable", default := .bool false },
       { name := S "line_width", default := .int 80 },
       { name := S "tab_size", default := .int 2 },
       { name := S "use_tabchars", default := .bool false },
       { name := S "fractional_tab_policy", default := .str (S "use-space") },
       { name := S "max_subgroups_hwrap", default := .int 2 },
       { name := S "max_pargs_hwrap", default := .int 6 },
       { name := S "max_rows_cmdline", default := .int 2 },
       { name := S "separate_ctrl_name_with_space", default := .bool false },
       { name := S "separate_fn_name_with_space", default := .bool false },
       { name := S "dangle_parens", default := .bool false },
       { name := S "dangle_align", default := .str (S "prefix") },
       { name := S "min_prefix_chars", default := .int 4 },
       { name := S "max_prefix_chars", default := .int 10 },
       { name := S "max_lines_hwrap", default := .int 2 },
       { name := S "line_ending", default := .str (S "unix") },
       { name := S "command_case", default := .str (S "canonical") },
       { name := S "keyword_case", default := .str (S "unchanged") },
       { name := S "always_wrap", default := .list [] },
       { name := S "enable_sort", default := .bool true },
       { name := S "autosort", default := .bool false },
       { name := S "require_valid_layout", default := .bool false },
       { name := S "layout_passes", default := .dict [] }] }

/-- `MarkupConfig`, configuration.py:13. -/
def markupConfig : Section :=
  { name := S "markup"
    fields :=
      [{ name := S "bullet_char", default := .str (S "*") },
       { name := S "enum_char", default := .str (S ".") },
       { name := S "first_comment_is_literal", default := .bool false },
       { name := S "literal_comment_pattern", default := .none },
       { name := S "fence_pattern", default := .str (S "^\\s*([`~]{3}[`~]*)(.*)$") },
       { name := S "ruler_pattern", default := .str (S "^\\s*[^\\w\\s]{3}.*[^\\w\\s]{3}$") },
       { name := S "explicit_trailing_pattern", default := .str (S "#<") },
       { name := S "hashruler_min_length", default := .int 10 },
       { name := S "canonicalize_hashrulers", default := .bool true },
       { name := S "enable_markup", default := .bool true }] }

/-- `LinterConfig`, configuration.py:95. -/
def linterConfig : Section :=
  { name := S "lint"
    fields :=
      [{ name := S "disabled_codes", default := .list [] },
       { name := S "function_pattern", default := .str (S "[0-9a-z_]+") },
       { name := S "macro_pattern", default := .str (S "[0-9A-Z_]+") },
       { name := S "global_var_pattern", default := .str (S "[A-Z][0-9A-Z_]+") },
       { name := S "internal_var_pattern", default := .str (S "_[A-Z][0-9A-Z_]+") },
       { name := S "local_var_pattern", default := .str (S "[a-z][a-z0-9_]+") },
       { name := S "private_var_pattern", default := .str (S "_[0-9a-z_]+") },
       { name := S "public_var_pattern", default := .str (S "[A-Z][0-9A-Z_]+") },
       { name := S "argument_var_pattern", default := .str (S "[a-z][a-z0-9_]+") },
       { name := S "keyword_pattern", default := .str (S "[A-Z][0-9A-Z_]+") },
       { name := S "max_conditionals_custom_parser", default := .int 2 },
       { name := S "min_statement_spacing", default := .int 1 },
       { name := S "max_statement_spacing", default := .int 2 },
       { name := S "max_returns", default := .int 6 },
       { name := S "max_branches", default := .int 12 },
       { name := S "max_arguments", default := .int 5 },
       { name := S "max_localvars", default := .int 15 },
       { name := S "max_statements", default := .int 50 }] }

/-- `EncodingConfig`, configuration.py:73. -/
def encodingConfig : Section :=
  { name := S "encode"
    fields :=
      [{ name := S "emit_byteorder_mark", default := .bool false },
       { name := S "input_encoding", default := .str (S "utf-8") },
       { name := S "output_encoding", default := .str (S "utf-8") }] }

/-- `MiscConfig`, configuration.py:416. -/
def miscConfig : Section :=
  { name := S "misc"
    fields :=
      [{ name := S "per_command", default := .dict [] }] }

/-- `Configuration`, configuration.py:445-454. -/
def configuration : Obj :=
  [parseConfig, formattingConfig, markupConfig, linterConfig, encodingConfig, miscConfig]

end Verif.Config
