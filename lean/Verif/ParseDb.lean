import Verif.ParseFuns
import Verif.SpecTables

/-!
# The command database: `cmakelang/parse/funs/*.py` and `get_parse_db`,
`cmakelang/parse/funs/__init__.py`, lines 66-94

The parse functions that look at the tokens before choosing how to parse are `choose`.  They
look at all the remaining tokens of the listfile, not only at those of the command.  Calls that
only record lint or log are left out.
-/

namespace Verif.Parse
open Verif Py Lex Parse.Funs

/-- `StandardArgTree.parse(ctx, tokens, npargs='*', kwargs={}, flags=[])`. -/
def anyArgs : ArgP := std (.str (S "*"))

/-- `get_nth_semantic_token`, parse/util.py:354-360. -/
def nthSem (n : Nat) (ts : List Token) : Option Token := (semantics ts)[n]?

/-- `token.spelling.upper()` of the nth token with a meaning. -/
def nthWord (n : Nat) (ts : List Token) : Option Str := (nthSem n ts).map fun t => upper t.spelling

/-- The fallback that first reads `tokens[0]` for a log message. -/
def anyLogged (ts : List Token) : Except Err ArgP :=
  if ts = [] then .error .index else .ok anyArgs

/-- `parse_foreach`, funs/foreach.py:137-171. -/
def foreachFn : ArgP := .choose fun ts =>
  match nthWord 1 ts with
  | none => anyLogged ts
  | some w =>
    if w = S "RANGE" then .ok foreachRange
    else if w = S "IN" then .ok .foreachIn
    else .ok .foreachStandard

/-- `p in s`. -/
def hasSub (p : Str) : Str → Bool
  | [] => p.isEmpty
  | c :: s => startsWith p (c :: s) || hasSub p s

/-- `"${" in s`. -/
def hasDeref (s : Str) : Bool := hasSub (S "${") s

/-- `parse_add_executable`, funs/add_executable.py:145-185. -/
def addExecutable : ArgP := .choose fun ts =>
  match nthSem 1 ts with
  | none => anyLogged ts
  | some t =>
    if upper t.spelling = S "ALIAS" then .ok addExecutableAlias
    else if upper t.spelling = S "IMPORTED" then .ok addExecutableImported
    else .ok (.addSources false (!hasDeref t.spelling))

/-- `parse_add_library`, funs/add_library.py:218-270.  `third_token.spelling` of a missing
third token is an `AttributeError`. -/
def addLibrary : ArgP := .choose fun ts =>
  match nthSem 1 ts with
  | none => anyLogged ts
  | some t =>
    if upper t.spelling = S "OBJECT" then .ok .addLibraryObject
    else if upper t.spelling = S "ALIAS" then .ok addLibraryAlias
    else if upper t.spelling = S "INTERFACE" then .ok addLibraryInterface
    else if upper t.spelling = S "IMPORTED" then .ok addLibraryImported
    else
      match nthSem 2 ts with
      | none => if hasDeref t.spelling then .ok (.addSources true false) else .error .attribute
      | some u =>
        if upper u.spelling = S "IMPORTED" then .ok addLibraryImported
        else .ok (.addSources true (!(hasDeref t.spelling || hasDeref u.spelling)))

/-- `parse_add_custom_command`, funs/add_xxx.py:110-141. -/
def addCustomCommand : ArgP := .choose fun ts =>
  match nthSem 0 ts with
  | none => .ok anyArgs
  | some t =>
    if t.type = .rparen then .ok anyArgs
    else if t.type = .deref then .ok addCustomCommandStandard
    else if normKwarg t = some (S "TARGET") then .ok addCustomCommandEvents
    else .ok addCustomCommandStandard

/-- The form shared by `parse_file` and `parse_list`: the first token chooses. -/
def byFirst (table : List (Str × ArgP)) : ArgP := .choose fun ts =>
  match nthSem 0 ts with
  | none => .ok anyArgs
  | some t =>
    if t.type = .rparen ∨ t.type = .deref then .ok anyArgs
    else .ok ((table.lookup (upper t.spelling)).getD anyArgs)

/-- `HASH_STRINGS`, funs/file.py:73-84. -/
def hashStrings : List Str :=
  [S "MD5", S "SHA1", S "SHA224", S "SHA256", S "SHA384", S "SHA512", S "SHA3_224", S "SHA3_256",
   S "SHA3_384", S "SHA3_512"]

/-- The table in `parse_file`, funs/file.py:383-411. -/
def fileTable : List (Str × ArgP) :=
  [(S "READ", fileRead), (S "STRINGS", fileStrings), (S "TIMESTAMP", fileTimestamp),
   (S "WRITE", .fileWrite), (S "APPEND", .fileWrite),
   (S "TOUCH", std (.str (S "+")) [] [S "TOUCH"]),
   (S "TOUCH_NOCREATE", std (.str (S "+")) [] [S "TOUCH_NOCREATE"]),
   (S "GENERATE", fileGenerateOutput), (S "GLOB", fileGlob), (S "GLOB_RECURSE", fileGlob),
   (S "RENAME", std (.int 3) [] [S "RENAME"]),
   (S "REMOVE", std (.str (S "+")) [] [S "REMOVE"]),
   (S "REMOVE_RECURSE", std (.str (S "+")) [] [S "REMOVE_RECURSE"]),
   (S "MAKE_DIRECTORY", std (.str (S "+")) [] [S "MAKE_DIRECTORY"]),
   (S "COPY", fileCopy), (S "INSTALL", fileCopy),
   (S "SIZE", std (.int 3) [] [S "SIZE"]),
   (S "READ_SYMLINK", std (.int 3) [] [S "READ_SYMLINK"]),
   (S "CREATE_LINK", fileCreateLink),
   (S "RELATIVE_PATH", std (.int 4) [] [S "RELATIVE_PATH"]),
   (S "TO_CMAKE_PATH", std (.int 3) [] [S "TO_CMAKE_PATH"]),
   (S "TO_NATIVE_PATH", std (.int 3) [] [S "TO_NATIVE_PATH"]),
   (S "DOWNLOAD", fileXfer), (S "UPLOAD", fileXfer), (S "LOCK", fileLock)]
  ++ hashStrings.map fun h => (h, fileHash)

/-- `parse_file`, funs/file.py:324-422. -/
def fileFn : ArgP := byFirst fileTable

/-- `SORT_KWARGS`, funs/list.py:16-20. -/
def sortKwargs : List (Str × ArgP) :=
  [(S "COMPARE", std (.int 1) [] [S "STRING", S "FILE_BASENAME"]),
   (S "CASE", std (.int 1) [] [S "SENSITIVE", S "INSENSITIVE"]),
   (S "ORDER", std (.int 1) [] [S "ASCENDING", S "DESCENDING"])]

/-- `TRANSFORM_KWARGS`, funs/list.py:22-35. -/
def transformKwargs : List (Str × ArgP) :=
  [(S "APPEND", std (.int 1)), (S "PREPEND", std (.int 1)), (S "TOLOWER", .null),
   (S "TOUPPER", .null), (S "STRIP", .null), (S "GENEX_STRIP", .null), (S "REPLACE", std (.int 2)),
   (S "AT", std (.str (S "+"))), (S "FOR", std (.str (S "2+"))), (S "REGEX", std (.int 1))]

/-- The table in `parse_list`, funs/list.py:99-119. -/
def listTable : List (Str × ArgP) :=
  [(S "LENGTH", std (.int 3) [] [S "LENGTH"]),
   (S "GET", std (.str (S "4+")) [] [S "GET"]),
   (S "JOIN", std (.int 4) [] [S "JOIN"]),
   (S "SUBLIST", std (.int 5) [] [S "SUBLIST"]),
   (S "FIND", std (.int 4) [] [S "FIND"]),
   (S "APPEND", std (.str (S "2+")) [] [S "APPEND"]),
   (S "FILTER", std (.int 5) [] [S "FILTER", S "INCLUDE", S "EXCLUDE", S "REGEX"]),
   (S "INSERT", std (.str (S "4+")) [] [S "INSERT"]),
   (S "POP_BACK", std (.str (S "2+")) [] [S "POP_BACK"]),
   (S "POP_FRONT", std (.str (S "2+")) [] [S "POP_FRONT"]),
   (S "PREPEND", std (.str (S "2+")) [] [S "PREPEND"]),
   (S "REMOVE_ITEM", std (.str (S "3+")) [] [S "REMOVE_ITEM"]),
   (S "REMOVE_AT", std (.str (S "3+")) [] [S "REMOVE_AT"]),
   (S "REMOVE_DUPLICATES", std (.int 2) [] [S "REMOVE_DUPLICATES"]),
   (S "TRANSFORM", std (.int 2) transformKwargs [S "TRANSFORM"]),
   (S "REVERSE", std (.int 2) [] [S "REVERSE"]),
   (S "SORT", std (.int 2) sortKwargs [S "SORT"])]

/-- `parse_list`, funs/list.py:38-130. -/
def listFn : ArgP := byFirst listTable

/-- The table in `parse_install`, funs/install.py:306-314. -/
def installTable : List (Str × ArgP) :=
  [(S "TARGETS", .installTargets), (S "FILES", installFiles), (S "PROGRAMS", installFiles),
   (S "DIRECTORY", installDirectory), (S "SCRIPT", installScript), (S "CODE", installScript),
   (S "EXPORT", installExport)]

/-- `parse_install`, funs/install.py:283-321. -/
def installFn : ArgP := .choose fun ts =>
  match nthWord 0 ts with
  | none => anyLogged ts
  | some w => .ok ((installTable.lookup w).getD anyArgs)

/-- `parse_build_command`, funs/miscellaneous.py:14-39.  The method `upper` is not called, so
the test `not in kwargs` always holds. -/
def buildCommand : ArgP := .choose fun ts =>
  match nthSem 1 ts with
  | some _ => .ok (std (.str (S "2")))
  | none => .ok (std (.str (S "1")) [(S "CONFIGURATION", pos (.int 1)), (S "TARGET", pos (.int 1)),
      (S "PROJECT_NAME", pos (.int 1))])

/-- `parse_cmake_parse_arguments`, funs/miscellaneous.py:42-60.  The method `upper` is not
called, so the first form is never chosen. -/
def cmakeParseArguments : ArgP := std (.str (S "5+"))

/-- `parse_cmake_policy`, funs/miscellaneous.py:63-101. -/
def cmakePolicy : ArgP := .choose fun ts =>
  match nthSem 0 ts with
  | none => .ok (std (.str (S "+")))
  | some t =>
    if t.type = .deref then .ok (std (.str (S "+")))
    else if upper t.spelling = S "VERSION" then .ok (std (.str (S "2+")) [] [S "VERSION"])
    else if upper t.spelling = S "SET" then .ok (std (.int 3) [] [S "SET", S "OLD", S "NEW"])
    else if upper t.spelling = S "GET" then .ok (std (.int 3) [] [S "GET"])
    else .ok (std (.int 1) [] [S "PUSH", S "POP"])

/-- `parse_get_filename_component`, funs/miscellaneous.py:160-186. -/
def getFilenameComponent : ArgP := .choose fun ts =>
  if nthWord 2 ts = some (S "PROGRAM") then
    .ok (std (.str (S "3+")) [] [S "PROGRAM", S "PROGRAM_ARGS", S "CACHE"])
  else
    .ok (std (.str (S "3+")) [] [S "DIRECTORY", S "NAME", S "EXT", S "NAME_WE", S "ABSOLUTE",
      S "REALPATH", S "PATH"])

/-- `parse_source_group`, funs/miscellaneous.py:428-455. -/
def sourceGroup : ArgP := .choose fun ts =>
  if nthWord 0 ts = some (S "TREE") then
    .ok (std (.int 2) [(S "PREFIX", pos (.int 1)), (S "FILES", pos (.str (S "+")))])
  else
    match nthWord 1 ts with
    | some w =>
      if w = S "FILES" ∨ w = S "REGULAR_EXPRESSION" then
        .ok (std (.int 1) [(S "FILES", pos (.str (S "+"))), (S "REGULAR_EXPRESSION", pos (.int 1))])
      else .ok (std (.int 2))
    | none =>
      .ok (std (.int 1) [(S "FILES", pos (.str (S "+"))), (S "REGULAR_EXPRESSION", pos (.int 1))])

/-- `parse_ctest_sleep`, funs/random.py:170-182.  All the remaining tokens are counted, the
closing parenthesis among them. -/
def ctestSleep : ArgP := .choose fun ts =>
  if (semantics ts).length = 1 then .ok (std (.int 1)) else .ok (std (.int 3))

/-- `parse_install_files`, funs/deprecated.py:41-60. -/
def oldInstallFiles : ArgP := .choose fun ts =>
  if nthWord 1 ts = some (S "FILES") then .ok (std (.str (S "3+")) [] [S "FILES"])
  else if (nthSem 2 ts).isNone then .ok (std (.int 2))
  else .ok (std (.str (S "3+")))

/-- `parse_install_programs`, funs/deprecated.py:63-82. -/
def oldInstallPrograms : ArgP := oldInstallFiles

/-- The `populate_db` functions, in the order of `SUBMODULE_NAMES`, funs/__init__.py:47-63. -/
def funTable : List (Str × ArgP) :=
  [(c! "add_executable", addExecutable),
   (c! "add_library", addLibrary),
   (c! "add_custom_command", addCustomCommand),
   (c! "add_custom_target", .customTarget),
   (c! "add_compile_options", addCompileOptions),
   (c! "add_definitions", addDefinitions),
   (c! "add_dependencies", addDependencies),
   (c! "add_subdirectory", addSubdirectory),
   (c! "aux_source_directory", auxSourceDirectory),
   (c! "build_name", buildName),
   (c! "exec_program", execProgram),
   (c! "install_files", oldInstallFiles),
   (c! "install_programs", oldInstallPrograms),
   (c! "install_targets", oldInstallTargets),
   (c! "make_directory", makeDirectory),
   (c! "remove", remove),
   (c! "subdir_depends", subdirDepends),
   (c! "subdirs", subdirs),
   (c! "use_mangled_mesa", useMangledMesa),
   (c! "utility_source", utilitySource),
   (c! "variable_requires", variableRequires),
   (c! "write_file", writeFile),
   (c! "break", .emptyFn),
   (c! "continue", .emptyFn),
   (c! "enable_testing", .emptyFn),
   (c! "return", .emptyFn),
   (c! "externalproject_add", externalProjectAdd),
   (c! "externalproject_get_property", std (.str (S "+"))),
   (c! "externalproject_add_step", externalProjectAddStep),
   (c! "externalproject_add_steptargets", std (.str (S "+")) [] [S "NO_DEPENDS"]),
   (c! "externalproject_add_stepdependencies", std (.str (S "+"))),
   (c! "fetchcontent_declare", fetchcontentDeclare),
   (c! "fetchcontent_populate", fetchcontentPopulate),
   (c! "fetchcontent_getproperties", fetchcontentGetproperties),
   (c! "fetchcontent_makeavailable", std (.str (S "+"))),
   (c! "foreach", foreachFn),
   (c! "file", fileFn),
   (c! "install", installFn),
   (c! "list", listFn),
   (c! "build_command", buildCommand),
   (c! "cmake_parse_arguments", cmakeParseArguments),
   (c! "cmake_policy", cmakePolicy),
   (c! "create_test_sourcelist", createTestSourcelist),
   (c! "export_library_dependencies", exportLibraryDependencies),
   (c! "fltk_wrap_ui", fltkWrapUi),
   (c! "get_cmake_property", getCmakeProperty),
   (c! "get_filename_component", getFilenameComponent),
   (c! "get_source_file_property", getSourceFileProperty),
   (c! "get_target_property", getTargetProperty),
   (c! "get_test_property", getTestProperty),
   (c! "include_external_msproject", includeExternalMsproject),
   (c! "include_guard", includeGuard),
   (c! "include_regular_expression", includeRegularExpression),
   (c! "link_directories", linkDirectories),
   (c! "link_libraries", linkLibraries),
   (c! "load_cache", loadCache),
   (c! "load_command", loadCommand),
   (c! "math", math),
   (c! "option", option),
   (c! "output_required_files", outputRequiredFiles),
   (c! "qt_wrap_cpp", qtWrapCpp),
   (c! "qt_wrap_ui", qtWrapUi),
   (c! "remove_definitions", removeDefinitions),
   (c! "separate_arguments", separateArguments),
   (c! "set_source_files_properties", setSourceFilesProperties),
   (c! "site_name", siteName),
   (c! "source_group", sourceGroup),
   (c! "ctest_build", ctestBuild),
   (c! "ctest_configure", ctestConfigure),
   (c! "ctest_coverage", ctestCoverage),
   (c! "ctest_empty_binary_directory", ctestEmptyBinaryDirectory),
   (c! "ctest_memcheck", ctestMemcheck),
   (c! "ctest_read_custom_files", ctestReadCustomFiles),
   (c! "ctest_run_script", ctestRunScript),
   (c! "ctest_sleep", ctestSleep),
   (c! "ctest_start", ctestStart),
   (c! "ctest_submit", ctestSubmit),
   (c! "ctest_test", ctestTest),
   (c! "ctest_update", ctestUpdate),
   (c! "ctest_upload", ctestUpload),
   (c! "target_compile_definitions", targetCompileDefinitions),
   (c! "target_compile_features", targetCompileFeatures),
   (c! "target_sources", targetSources),
   (c! "unset", unset),
   (c! "variable_watch", variableWatch),
   (c! "add_compile_definitions", addCompileDefinitions),
   (c! "set", .setFn),
   (c! "set_target_properties", setTargetProperties)]

/-- The entries made in `get_parse_db` itself, funs/__init__.py:78-86. -/
def flowTable : List (Str × ArgP) :=
  [(c! "if", .conditional), (c! "else", .conditional), (c! "elseif", .conditional),
   (c! "endif", .conditional), (c! "while", .conditional), (c! "endwhile", .conditional),
   (c! "function", std (.str (S "1+"))), (c! "macro", std (.str (S "1+"))),
   (c! "endfunction", std (.str (S "?"))), (c! "endmacro", std (.str (S "?")))]

/-- `get_fn_spec`, funs/standard_funs.py:36-46.  Every entry is a dictionary that
`CommandSpec` accepts, see `stdSpec_ok`. -/
def stdSpecE : Except SpecErr Spec := Spec.addAll (Tables.builtins ++ Tables.modules) .root

/-- The specifications of the standard commands. -/
def stdSpec : Spec := (stdSpecE.toOption).getD .root

/-- `get_parse_db`, funs/__init__.py:66-89: later entries replace earlier ones. -/
def builtinOf (std : Spec) (name : Str) : Option ArgP :=
  match (funtree std.kwargs).lookup name with
  | some p => some p
  | none =>
    match flowTable.lookup name with
    | some p => some p
    | none => funTable.lookup name

/-- The database without the user's commands. -/
def builtinDb (name : Str) : Option ArgP := builtinOf stdSpec name

/-- `parse_db.update(get_funtree(config.parse.fn_spec))`, format/__main__.py:150-151. -/
def commandDb (user : Spec) (name : Str) : Option ArgP :=
  match (funtree user.kwargs).lookup name with
  | some p => some p
  | none => builtinDb name

/-- `".*_COMMAND"`, without regard to letter case, matched at the beginning of a name:
`BUILTIN_VARTAGS`, configuration.py:370-372. -/
def commandVar (s : Str) : Bool := hasSub (S "_COMMAND") (upper (s.takeWhile (· ≠ '\n')))

/-- The parser context of `process_file`, format/__main__.py:150-157; `vartags` are the user's
patterns, compiled. -/
def commandCtx (user : Spec) (explicit : Str → Bool) (vartags : List ((Str → Bool) × List Str)) :
    Ctx :=
  { db := commandDb user, explicit := explicit, vartags := (commandVar, [S "cmdline"]) :: vartags }

end Verif.Parse
