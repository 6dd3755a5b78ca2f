import Verif.CmdSpec

/-!
# The tables of command specifications

`FUNSPECS` of `cmakelang/parse/funs/standard_builtins.py` and
`cmakelang/parse/funs/standard_modules.py`, and `ADDITIONAL_COMMANDS_DEMO` of
`cmakelang/configuration.py`, copied by a script.  The entries are sorted by name, the order in
which `get_fn_spec` (funs/standard_funs.py:36-46) adds them.
-/

namespace Verif.Parse.Tables
open Verif Py Parse

/-- A string as a list of its characters, written out while the file is read: unlike `S` nothing is
left to compute. -/
macro "c!" s:str : term => do
  let cs : Array (Lean.TSyntax `term) := s.getString.toList.toArray.map fun c => Lean.Syntax.mkCharLit c
  `([$cs,*])

/-- `FUNSPECS`, funs/standard_builtins.py:4-359. -/
def builtins : List (Str × Decl) :=
  [(c! "add_test", .dict none [] [(c! "COMMAND", .dict (some (.scalar (.str (c! "+")))) []
     [(c! "ARGS", .scalar (.str (c! "*")))] none none), (c! "CONFIGURATIONS", .scalar (.str
     (c! "*"))), (c! "NAME", .scalar (.str (c! "*"))), (c! "WORKING_DIRECTORY", .scalar (.str
     (c! "*")))] none none),
   (c! "cmake_host_system_information", .dict none [] [(c! "QUERY", .scalar (.str (c! "*"))),
     (c! "RESULT", .scalar (.str (c! "*")))] none none),
   (c! "cmake_minimum_required", .dict none [c! "FATAL_ERROR"] [(c! "VERSION", .scalar (.str
     (c! "*")))] none none),
   (c! "cmake_minimum_required_version", .dict none [] [(c! "VERSION", .scalar (.str (c! "*")))] none
     none),
   (c! "configure_file", .dict none [c! "@ONLY", c! "COPYONLY", c! "ESCAPE_QUOTES"]
     [(c! "NEWLINE_STYLE", .scalar (.str (c! "*")))] none none),
   (c! "define_property", .dict none [c! "CACHED_VARIABLE", c! "DIRECTORY", c! "GLOBAL",
     c! "INHERITED", c! "SOURCE", c! "TARGET", c! "TEST", c! "VARIABLE"] [(c! "BRIEF_DOCS", .scalar
     (.str (c! "*"))), (c! "FULL_DOCS", .scalar (.str (c! "*"))), (c! "PROPERTY", .scalar (.str
     (c! "*")))] none none),
   (c! "enable_language", .dict none [c! "OPTIONAL"] [] none none),
   (c! "execute_process", .dict none [c! "ERROR_QUIET", c! "ERROR_STRIP_TRAILING_WHITESPACE",
     c! "OUTPUT_QUIET", c! "OUTPUT_STRIP_TRAILING_WHITESPACE"] [(c! "COMMAND", .scalar (.str
     (c! "*"))), (c! "ERROR_FILE", .scalar (.str (c! "*"))), (c! "ERROR_VARIABLE", .scalar (.str
     (c! "*"))), (c! "INPUT_FILE", .scalar (.str (c! "*"))), (c! "OUTPUT_FILE", .scalar (.str
     (c! "*"))), (c! "OUTPUT_VARIABLE", .scalar (.str (c! "*"))), (c! "RESULT_VARIABLE", .scalar (.str
     (c! "*"))), (c! "TIMEOUT", .scalar (.str (c! "*"))), (c! "WORKING_DIRECTORY", .scalar (.str
     (c! "*")))] none none),
   (c! "export", .dict none [c! "APPEND", c! "EXPORT_LINK_INTERFACE_LIBRARIES"] [(c! "ANDROID_MK",
     .scalar (.int 1)), (c! "EXPORT", .scalar (.int 1)), (c! "FILE", .scalar (.int 1)),
     (c! "NAMESPACE", .scalar (.int 1)), (c! "PACKAGE", .scalar (.int 1)), (c! "TARGETS", .scalar
     (.str (c! "+")))] none none),
   (c! "find_file", .dict none [c! "CMAKE_FIND_ROOT_PATH_BOTH", c! "NO_CMAKE_ENVIRONMENT_PATH",
     c! "NO_CMAKE_FIND_ROOT_PATH", c! "NO_CMAKE_PATH", c! "NO_CMAKE_SYSTEM_PATH",
     c! "NO_DEFAULT_PATH", c! "NO_SYSTEM_ENVIRONMENT_PATH", c! "ONLY_CMAKE_FIND_ROOT_PATH"]
     [(c! "DOC", .scalar (.str (c! "*"))), (c! "HINTS", .scalar (.str (c! "*"))), (c! "NAMES", .scalar
     (.str (c! "*"))), (c! "PATHS", .scalar (.str (c! "*"))), (c! "PATH_SUFFIXES", .scalar (.str
     (c! "*")))] none none),
   (c! "find_library", .dict none [c! "CMAKE_FIND_ROOT_PATH_BOTH", c! "NO_CMAKE_ENVIRONMENT_PATH",
     c! "NO_CMAKE_FIND_ROOT_PATH", c! "NO_CMAKE_PATH", c! "NO_CMKE_SYSTEM_PATH", c! "NO_DEFAULT_PATH",
     c! "NO_SYSTEM_ENVIRONMENT_PATH", c! "ONLY_CMAKE_FIND_ROOT_PATH"] [(c! "DOC", .scalar (.str
     (c! "*"))), (c! "HINTS", .scalar (.str (c! "*"))), (c! "NAMES", .scalar (.str (c! "*"))),
     (c! "PATHS", .scalar (.str (c! "*"))), (c! "PATH_SUFFIXES", .scalar (.str (c! "*")))] none none),
   (c! "find_package", .dict (some (.scalar (.str (c! "*")))) [c! "EXACT", c! "MODULE", c! "REQUIRED",
     c! "NO_POLICY_SCOPE", c! "QUIET"] [(c! "COMPONENTS", .scalar (.str (c! "*"))),
     (c! "OPTIONAL_COMPONENTS", .scalar (.str (c! "*")))] none none),
   (c! "find_path", .dict none [c! "CMAKE_FIND_ROOT_PATH_BOTH", c! "NO_CMAKE_ENVIRONMENT_PATH",
     c! "NO_CMAKE_FIND_ROOT_PATH", c! "NO_CMAKE_PATH", c! "NO_CMKE_SYSTEM_PATH", c! "NO_DEFAULT_PATH",
     c! "NO_SYSTEM_ENVIRONMENT_PATH", c! "ONLY_CMAKE_FIND_ROOT_PATH"] [(c! "DOC", .scalar (.str
     (c! "*"))), (c! "HINTS", .scalar (.str (c! "*"))), (c! "NAMES", .scalar (.str (c! "*"))),
     (c! "PATHS", .scalar (.str (c! "*"))), (c! "PATH_SUFFIXES", .scalar (.str (c! "*")))] none none),
   (c! "find_program", .dict none [c! "CMAKE_FIND_ROOT_PATH_BOTH", c! "NO_CMAKE_ENVIRONMENT_PATH",
     c! "NO_CMAKE_FIND_ROOT_PATH", c! "NO_CMAKE_PATH", c! "NO_CMAKE_SYSTEM_PATH",
     c! "NO_DEFAULT_PATH", c! "NO_SYSTEM_ENVIRONMENT_PATH", c! "ONLY_CMAKE_FIND_ROOT_PATH"]
     [(c! "DOC", .scalar (.str (c! "*"))), (c! "HINTS", .scalar (.str (c! "*"))), (c! "NAMES", .scalar
     (.str (c! "*"))), (c! "PATHS", .scalar (.str (c! "*"))), (c! "PATH_SUFFIXES", .scalar (.str
     (c! "*")))] none none),
   (c! "get_directory_property", .dict none [] [(c! "DIRECTORY", .scalar (.str (c! "*")))] none none),
   (c! "get_property", .dict none [c! "BRIEF_DOCS", c! "DEFINED", c! "FULL_DOCS", c! "GLOBAL", c! "SET",
     c! "VARIABLE"] [(c! "CACHE", .scalar (.str (c! "*"))), (c! "DIRECTORY", .scalar (.str (c! "*"))),
     (c! "PROPERTY", .scalar (.str (c! "*"))), (c! "SOURCE", .scalar (.str (c! "*"))), (c! "TARGET",
     .scalar (.str (c! "*"))), (c! "TEST", .scalar (.str (c! "*")))] none none),
   (c! "include", .dict none [c! "NO_POLICY_SCOPE", c! "OPTIONAL"] [(c! "RESULT_VARIABLE", .scalar
     (.str (c! "*")))] none none),
   (c! "include_directories", .dict none [c! "AFTER", c! "BEFORE", c! "SYSTEM"] [] none none),
   (c! "mark_as_advanced", .dict none [c! "CLEAR", c! "FORCE"] [] none none),
   (c! "message", .dict none [] [(c! "AUTHOR_WARNING", .scalar (.str (c! "*"))), (c! "DEPRECATION",
     .scalar (.str (c! "*"))), (c! "FATAL_ERROR", .scalar (.str (c! "*"))), (c! "SEND_ERROR", .scalar
     (.str (c! "*"))), (c! "STATUS", .scalar (.str (c! "*"))), (c! "WARNING", .scalar (.str (c! "*")))]
     none none),
   (c! "project", .dict none [] [(c! "DESCRIPTION", .scalar (.int 1)), (c! "HOMEPAGE_URL", .scalar
     (.int 1)), (c! "LANGUAGES", .scalar (.str (c! "*"))), (c! "VERSION", .scalar (.str (c! "*")))]
     none none),
   (c! "set_directory_properties", .dict none [] [(c! "PROPERTIES", .scalar (.str (c! "*")))] none
     none),
   (c! "set_property", .dict none [c! "APPEND", c! "APPEND_STRING", c! "GLOBAL"] [(c! "CACHE", .scalar
     (.str (c! "*"))), (c! "DIRECTORY", .scalar (.str (c! "*"))), (c! "PROPERTY", .scalar (.str
     (c! "*"))), (c! "SOURCE", .scalar (.str (c! "*"))), (c! "TARGET", .scalar (.str (c! "*"))),
     (c! "TEST", .scalar (.str (c! "*")))] none none),
   (c! "set_tests_properties", .dict none [] [(c! "PROPERTIES", .scalar (.str (c! "*")))] none none),
   (c! "string", .dict none [c! "@ONLY", c! "ESCAPE_QUOTES", c! "REVERSE", c! "UTC"] [(c! "ALPHABET",
     .scalar (.str (c! "*"))), (c! "ASCII", .scalar (.str (c! "*"))), (c! "COMPARE", .scalar (.str
     (c! "*"))), (c! "CONCAT", .scalar (.str (c! "*"))), (c! "CONFIGURE", .scalar (.str (c! "*"))),
     (c! "FIND", .scalar (.str (c! "*"))), (c! "LENGTH", .scalar (.str (c! "*"))),
     (c! "MAKE_C_IDENTIFIER", .scalar (.str (c! "*"))), (c! "MD5", .scalar (.str (c! "*"))),
     (c! "RANDOM", .scalar (.str (c! "*"))), (c! "RANDOM_SEED", .scalar (.str (c! "*"))), (c! "REGEX",
     .scalar (.str (c! "*"))), (c! "REPLACE", .scalar (.str (c! "*"))), (c! "SHA1", .scalar (.str
     (c! "*"))), (c! "SHA256", .scalar (.str (c! "*"))), (c! "SHA384", .scalar (.str (c! "*"))),
     (c! "SHA512", .scalar (.str (c! "*"))), (c! "STRIP", .scalar (.str (c! "*"))), (c! "SUBSTRING",
     .scalar (.str (c! "*"))), (c! "TIMESTAMP", .scalar (.str (c! "*"))), (c! "TOLOWER", .scalar (.str
     (c! "*"))), (c! "TOUPPER", .scalar (.str (c! "*")))] none none),
   (c! "target_compile_options", .dict none [] [(c! "PRIVATE", .scalar (.str (c! "+"))), (c! "PUBLIC",
     .scalar (.str (c! "+"))), (c! "INTERFACE", .scalar (.str (c! "+")))] none none),
   (c! "target_include_directories", .dict none [] [(c! "PRIVATE", .scalar (.str (c! "+"))),
     (c! "PUBLIC", .scalar (.str (c! "+"))), (c! "INTERFACE", .scalar (.str (c! "+")))] none none),
   (c! "target_link_libraries", .dict none [] [(c! "PRIVATE", .scalar (.str (c! "+"))), (c! "PUBLIC",
     .scalar (.str (c! "+"))), (c! "INTERFACE", .scalar (.str (c! "+")))] none none),
   (c! "try_compile", .dict (some (.list [.scalar (.int 2), .scalar (.str (c! "+"))])) []
     [(c! "CMAKE_FLAGS", .scalar (.str (c! "*"))), (c! "COMPILE_DEFINITIONS", .scalar (.str
     (c! "*"))), (c! "COPY_FILE", .scalar (.str (c! "*"))), (c! "LINK_OPTIONS", .scalar (.str
     (c! "*"))), (c! "LINK_LIBRARIES", .scalar (.str (c! "*"))), (c! "OUTPUT_VARIABLE", .scalar (.str
     (c! "*"))), (c! "RESULT_VAR", .scalar (.str (c! "*"))), (c! "SOURCES", .scalar (.str (c! "*")))]
     none none),
   (c! "try_run", .dict none [] [(c! "ARGS", .scalar (.str (c! "*"))), (c! "CMAKE_FLAGS", .scalar
     (.str (c! "*"))), (c! "COMPILE_DEFINITIONS", .scalar (.str (c! "*"))),
     (c! "COMPILE_OUTPUT_VARIABLE", .scalar (.str (c! "*"))), (c! "OUTPUT_VARIABLE", .scalar (.str
     (c! "*"))), (c! "RUN_OUTPUT_VARIABLE", .scalar (.str (c! "*")))] none none)]

/-- `FUNSPECS`, funs/standard_modules.py:6-1998, part 1. -/
def modules1 : List (Str × Decl) :=
  [(c! "add_command", .dict (some (.dict { nargs := some (.int 1) })) [] [] none none),
   (c! "add_compiler_export_flags", .dict (some (.dict { nargs := some (.int 0) })) [] [] none
     none),
   (c! "add_feature_info", .dict (some (.dict { nargs := some (.int 3) })) [] [] none none),
   (c! "add_file_dependencies", .dict (some (.dict { nargs := some (.int 1) })) [] [] none none),
   (c! "add_flex_bison_dependency", .dict (some (.dict { nargs := some (.int 2) })) [] [] none
     none),
   (c! "add_jar", .dict (some (.dict { nargs := some (.str (c! "1+")) })) [] [(c! "ENTRY_POINT",
     .scalar (.int 1)), (c! "INCLUDE_JARS", .scalar (.str (c! "+"))), (c! "MANIFEST", .scalar (.int
     1)), (c! "OUTPUT_DIR", .scalar (.int 1)), (c! "OUTPUT_NAME", .scalar (.int 1)), (c! "SOURCES",
     .scalar (.str (c! "+"))), (c! "VERSION", .scalar (.int 1))] none none),
   (c! "adjust_cmake_system_variables", .dict (some (.dict { nargs := some (.int 1) })) [] [] none
     none),
   (c! "android_add_test_data", .dict (some (.dict { nargs := some (.str (c! "1+")) })) []
     [(c! "DEVICE_OBJECT_STORE", .scalar (.int 1)), (c! "DEVICE_TEST_DIR", .scalar (.int 1)),
     (c! "FILES", .scalar (.str (c! "+"))), (c! "FILES_DEST", .scalar (.int 1)), (c! "LIBS", .scalar
     (.str (c! "+"))), (c! "LIBS_DEST", .scalar (.int 1)), (c! "NO_LINK_REGEX", .scalar (.str
     (c! "+")))] none none),
   (c! "bison_target", .dict (some (.dict { nargs := some (.str (c! "3+")) })) []
     [(c! "COMPILE_FLAGS", .scalar (.int 1)), (c! "DEFINES_FILE", .scalar (.int 1)),
     (c! "REPORT_FILE", .scalar (.int 1)), (c! "VERBOSE", .scalar (.str (c! "+")))] none none),
   (c! "bison_target_option_defines", .dict (some (.dict { nargs := some (.int 2) })) [] [] (some
     (c! "BISON_TARGET_option_defines")) none),
   (c! "bison_target_option_extraopts", .dict (some (.dict { nargs := some (.int 1) })) [] [] (some
     (c! "BISON_TARGET_option_extraopts")) none),
   (c! "bison_target_option_report_file", .dict (some (.dict { nargs := some (.int 2) })) [] []
     (some (c! "BISON_TARGET_option_report_file")) none),
   (c! "bison_target_option_verbose", .dict (some (.dict { nargs := some (.int 3) })) [] [] (some
     (c! "BISON_TARGET_option_verbose")) none),
   (c! "check_c_compiler_flag", .dict (some (.dict { nargs := some (.int 2) })) [] [] none none),
   (c! "check_c_source_compiles", .dict (some (.dict { nargs := some (.int 2) })) [] [] none none),
   (c! "check_c_source_runs", .dict (some (.dict { nargs := some (.int 2) })) [] [] none none),
   (c! "check_compiler_flag_common_patterns", .dict (some (.dict { nargs := some (.int 1) })) [] []
     none none),
   (c! "check_cxx_accepts_flag", .dict (some (.dict { nargs := some (.int 2) })) [] [] none none),
   (c! "check_cxx_compiler_flag", .dict (some (.dict { nargs := some (.int 2) })) [] [] none none),
   (c! "check_cxx_source_compiles", .dict (some (.dict { nargs := some (.int 2) })) [] [] none
     none),
   (c! "check_cxx_source_runs", .dict (some (.dict { nargs := some (.int 2) })) [] [] none none),
   (c! "check_cxx_symbol_exists", .dict (some (.dict { nargs := some (.int 3) })) [] [] none none),
   (c! "check_fortran_compiler_flag", .dict (some (.dict { nargs := some (.int 2) })) [] [] (some
     (c! "CHECK_Fortran_COMPILER_FLAG")) none),
   (c! "check_fortran_function_exists", .dict (some (.dict { nargs := some (.int 2) })) [] [] none
     none),
   (c! "check_fortran_libraries", .dict (some (.dict { nargs := some (.int 6) })) [] [] (some
     (c! "Check_Fortran_Libraries")) none),
   (c! "check_fortran_source_compiles", .dict (some (.dict { nargs := some (.int 2) })) [] [] (some
     (c! "CHECK_Fortran_SOURCE_COMPILES")) none),
   (c! "check_function_exists", .dict (some (.dict { nargs := some (.int 2) })) [] [] none none),
   (c! "check_include_file", .dict (some (.dict { nargs := some (.int 2) })) [] [] none none),
   (c! "check_include_file_cxx", .dict (some (.dict { nargs := some (.int 2) })) [] [] none none),
   (c! "check_include_files", .dict (some (.dict { nargs := some (.int 2) })) [] [] none none),
   (c! "check_ipo_supported", .dict (some (.dict { nargs := some (.str (c! "*")) })) []
     [(c! "LANGUAGES", .scalar (.str (c! "+"))), (c! "OUTPUT", .scalar (.int 1)), (c! "RESULT",
     .scalar (.int 1))] none none),
   (c! "check_language", .dict (some (.dict { nargs := some (.int 1) })) [] [] none none),
   (c! "check_lapack_libraries", .dict (some (.dict { nargs := some (.int 7) })) [] [] (some
     (c! "Check_Lapack_Libraries")) none),
   (c! "check_library_exists", .dict (some (.dict { nargs := some (.int 4) })) [] [] none none),
   (c! "check_prototype_definition", .dict (some (.dict { nargs := some (.int 5) })) [] [] none
     none),
   (c! "check_required_var", .dict (some (.dict { nargs := some (.int 1) })) [] [] none none),
   (c! "check_struct_has_member", .dict (some (.dict { nargs := some (.int 4) })) [] [] none none),
   (c! "check_symbol_exists", .dict (some (.dict { nargs := some (.int 3) })) [] [] none none),
   (c! "check_type_size", .dict (some (.dict { nargs := some (.int 2) })) [] [] none none),
   (c! "check_variable_exists", .dict (some (.dict { nargs := some (.int 2) })) [] [] none none)]

/-- `FUNSPECS`, funs/standard_modules.py:6-1998, part 2. -/
def modules2 : List (Str × Decl) :=
  [(c! "check_version", .dict (some (.dict { nargs := some (.int 2) })) [] [] none none),
   (c! "clear_bundle_keys", .dict (some (.dict { nargs := some (.int 1) })) [] [] none none),
   (c! "cmake_add_fortran_subdirectory", .dict (some (.dict
     { nargs := some (.str (c! "1+")), flags := [c! "NO_EXTERNAL_INSTALL"] })) [] [(c! "ARCHIVE_DIR",
     .scalar (.int 1)), (c! "CMAKE_COMMAND_LINE", .scalar (.str (c! "+"))), (c! "LIBRARIES", .scalar
     (.str (c! "+"))), (c! "LINK_LIBRARIES", .scalar (.str (c! "+"))), (c! "PROJECT", .scalar (.int
     1)), (c! "RUNTIME_DIR", .scalar (.int 1))] none none),
   (c! "cmake_dependent_option", .dict (some (.dict { nargs := some (.int 5) })) [] [] none none),
   (c! "cmake_determine_compile_features", .dict (some (.dict { nargs := some (.int 1) })) [] []
     none none),
   (c! "cmake_determine_compiler_abi", .dict (some (.dict { nargs := some (.int 2) })) [] [] none
     none),
   (c! "cmake_determine_compiler_id", .dict (some (.dict { nargs := some (.int 3) })) [] [] none
     none),
   (c! "cmake_determine_compiler_id_build", .dict (some (.dict { nargs := some (.int 4) })) [] []
     none none),
   (c! "cmake_determine_compiler_id_check", .dict (some (.dict { nargs := some (.int 2) })) [] []
     none none),
   (c! "cmake_determine_compiler_id_match_vendor", .dict (some (.dict { nargs := some (.int 2) }))
     [] [] none none),
   (c! "cmake_determine_compiler_id_vendor", .dict (some (.dict { nargs := some (.int 2) })) [] []
     none none),
   (c! "cmake_determine_compiler_id_write", .dict (some (.dict { nargs := some (.int 2) })) [] []
     none none),
   (c! "cmake_determine_msvc_showincludes_prefix", .dict (some (.dict { nargs := some (.int 2) }))
     [] [] none none),
   (c! "cmake_diagnose_unsupported_clang", .dict (some (.dict { nargs := some (.int 2) })) [] []
     none none),
   (c! "cmake_expand_imported_targets", .dict (some (.dict { nargs := some (.str (c! "1+")) })) []
     [(c! "CONFIGURATION", .scalar (.int 1)), (c! "LIBRARIES", .scalar (.str (c! "+")))] none none),
   (c! "cmake_export_build_settings", .dict (some (.dict { nargs := some (.int 1) })) [] [] none
     none),
   (c! "cmake_find_frameworks", .dict (some (.dict { nargs := some (.int 1) })) [] [] none none),
   (c! "cmake_force_c_compiler", .dict (some (.dict { nargs := some (.int 2) })) [] [] none none),
   (c! "cmake_force_cxx_compiler", .dict (some (.dict { nargs := some (.int 2) })) [] [] none none),
   (c! "cmake_force_fortran_compiler", .dict (some (.dict { nargs := some (.int 2) })) [] [] (some
     (c! "CMAKE_FORCE_Fortran_COMPILER")) none),
   (c! "cmake_import_build_settings", .dict (some (.dict { nargs := some (.int 1) })) [] [] none
     none),
   (c! "cmake_parse_implicit_link_info", .dict (some (.dict { nargs := some (.int 6) })) [] [] none
     none),
   (c! "cmake_pop_check_state", .dict (some (.dict { nargs := some (.int 0) })) [] [] none none),
   (c! "cmake_print_properties", .dict (some (.dict { nargs := some (.str (c! "*")) })) []
     [(c! "CACHE_ENTRIES", .scalar (.str (c! "+"))), (c! "DIRECTORIES", .scalar (.str (c! "+"))),
     (c! "PROPERTIES", .scalar (.str (c! "+"))), (c! "SOURCES", .scalar (.str (c! "+"))),
     (c! "TARGETS", .scalar (.str (c! "+"))), (c! "TESTS", .scalar (.str (c! "+")))] none none),
   (c! "cmake_print_variables", .dict (some (.dict { nargs := some (.int 0) })) [] [] none none),
   (c! "cmake_push_check_state", .dict (some (.dict { nargs := some (.int 0) })) [] [] none none),
   (c! "cmake_reset_check_state", .dict (some (.dict { nargs := some (.int 0) })) [] [] none none),
   (c! "compiler_id_detection", .dict (some (.dict
     { nargs := some (.str (c! "2+")), flags := [c! "ID_STRING", c! "VERSION_STRINGS", c! "ID_DEFINE", c! "PLATFORM_DEFAULT_COMPILER"] }))
     [] [(c! "PREFIX", .scalar (.int 1))] none none),
   (c! "configure_package_config_file", .dict (some (.dict
     { nargs := some (.str (c! "2+")), flags := [c! "NO_SET_AND_CHECK_MACRO", c! "NO_CHECK_REQUIRED_COMPONENTS_MACRO"] }))
     [] [(c! "INSTALL_DESTINATION", .scalar (.int 1)), (c! "INSTALL_PREFIX", .scalar (.int 1)),
     (c! "PATH_VARS", .scalar (.str (c! "+")))] none none),
   (c! "copy_and_fixup_bundle", .dict (some (.dict { nargs := some (.int 4) })) [] [] none none),
   (c! "copy_resolved_framework_into_bundle", .dict (some (.dict { nargs := some (.int 2) })) [] []
     none none),
   (c! "copy_resolved_item_into_bundle", .dict (some (.dict { nargs := some (.int 2) })) [] [] none
     none),
   (c! "cpack_add_component", .dict (some (.dict
     { nargs := some (.str (c! "1+")), flags := [c! "HIDDEN", c! "REQUIRED", c! "DISABLED", c! "DOWNLOADED"] }))
     [] [(c! "ARCHIVE_FILE", .scalar (.int 1)), (c! "DEPENDS", .scalar (.str (c! "+"))),
     (c! "DESCRIPTION", .scalar (.int 1)), (c! "DISPLAY_NAME", .scalar (.int 1)), (c! "GROUP",
     .scalar (.int 1)), (c! "INSTALL_TYPES", .scalar (.str (c! "+"))), (c! "PLIST", .scalar (.int
     1))] none none),
   (c! "cpack_add_component_group", .dict (some (.dict
     { nargs := some (.str (c! "1+")), flags := [c! "EXPANDED", c! "BOLD_TITLE"] })) []
     [(c! "DESCRIPTION", .scalar (.int 1)), (c! "DISPLAY_NAME", .scalar (.int 1)),
     (c! "PARENT_GROUP", .scalar (.int 1))] none none),
   (c! "cpack_add_install_type", .dict (some (.dict { nargs := some (.str (c! "1+")) })) []
     [(c! "DISPLAY_NAME", .scalar (.int 1))] none none),
   (c! "cpack_append_list_variable_set_command", .dict (some (.dict { nargs := some (.int 2) })) []
     [] none none),
   (c! "cpack_append_option_set_command", .dict (some (.dict { nargs := some (.int 2) })) [] []
     none none),
   (c! "cpack_append_string_variable_set_command", .dict (some (.dict { nargs := some (.int 2) }))
     [] [] none none),
   (c! "cpack_append_variable_set_command", .dict (some (.dict { nargs := some (.int 2) })) [] []
     none none),
   (c! "cpack_check_file_exists", .dict (some (.dict { nargs := some (.int 2) })) [] [] none none)]

/-- `FUNSPECS`, funs/standard_modules.py:6-1998, part 3. -/
def modules3 : List (Str × Decl) :=
  [(c! "cpack_configure_downloads", .dict (some (.dict
     { nargs := some (.str (c! "1+")), flags := [c! "ALL", c! "ADD_REMOVE", c! "NO_ADD_REMOVE"] })) []
     [(c! "UPLOAD_DIRECTORY", .scalar (.int 1))] none none),
   (c! "cpack_deb_prepare_package_vars", .dict (some (.dict { nargs := some (.int 0) })) [] [] none
     none),
   (c! "cpack_deb_variable_fallback", .dict (some (.dict { nargs := some (.int 1) })) [] [] none
     none),
   (c! "cpack_encode_variables", .dict (some (.dict { nargs := some (.int 0) })) [] [] none none),
   (c! "cpack_ifw_add_package_resources", .dict (some (.dict { nargs := some (.int 0) })) [] []
     none none),
   (c! "cpack_ifw_add_repository", .dict (some (.dict
     { nargs := some (.str (c! "1+")), flags := [c! "DISABLED"] })) [] [(c! "DISPLAY_NAME", .scalar
     (.int 1)), (c! "PASSWORD", .scalar (.int 1)), (c! "URL", .scalar (.int 1)), (c! "USERNAME",
     .scalar (.int 1))] none none),
   (c! "cpack_ifw_configure_component", .dict (some (.dict
     { nargs := some (.str (c! "1+")), flags := [c! "COMMON", c! "ESSENTIAL", c! "VIRTUAL", c! "FORCED_INSTALLATION", c! "REQUIRES_ADMIN_RIGHTS"] }))
     [] [(c! "AUTO_DEPEND_ON", .scalar (.str (c! "+"))), (c! "CHECKABLE", .scalar (.int 1)),
     (c! "DEFAULT", .scalar (.int 1)), (c! "DEPENDENCIES", .scalar (.str (c! "+"))), (c! "DEPENDS",
     .scalar (.str (c! "+"))), (c! "DESCRIPTION", .scalar (.str (c! "+"))), (c! "DISPLAY_NAME",
     .scalar (.str (c! "+"))), (c! "LICENSES", .scalar (.str (c! "+"))), (c! "NAME", .scalar (.int
     1)), (c! "PRIORITY", .scalar (.int 1)), (c! "RELEASE_DATE", .scalar (.int 1)), (c! "REPLACES",
     .scalar (.str (c! "+"))), (c! "SCRIPT", .scalar (.int 1)), (c! "SORTING_PRIORITY", .scalar (.int
     1)), (c! "TRANSLATIONS", .scalar (.str (c! "+"))), (c! "UPDATE_TEXT", .scalar (.int 1)),
     (c! "USER_INTERFACES", .scalar (.str (c! "+"))), (c! "VERSION", .scalar (.int 1))] none none),
   (c! "cpack_ifw_configure_component_group", .dict (some (.dict
     { nargs := some (.str (c! "1+")), flags := [c! "VIRTUAL", c! "FORCED_INSTALLATION", c! "REQUIRES_ADMIN_RIGHTS"] }))
     [] [(c! "AUTO_DEPEND_ON", .scalar (.str (c! "+"))), (c! "CHECKABLE", .scalar (.int 1)),
     (c! "DEFAULT", .scalar (.int 1)), (c! "DEPENDENCIES", .scalar (.str (c! "+"))), (c! "DEPENDS",
     .scalar (.str (c! "+"))), (c! "DESCRIPTION", .scalar (.str (c! "+"))), (c! "DISPLAY_NAME",
     .scalar (.str (c! "+"))), (c! "LICENSES", .scalar (.str (c! "+"))), (c! "NAME", .scalar (.int
     1)), (c! "PRIORITY", .scalar (.int 1)), (c! "RELEASE_DATE", .scalar (.int 1)), (c! "REPLACES",
     .scalar (.str (c! "+"))), (c! "SCRIPT", .scalar (.int 1)), (c! "SORTING_PRIORITY", .scalar (.int
     1)), (c! "TRANSLATIONS", .scalar (.str (c! "+"))), (c! "UPDATE_TEXT", .scalar (.int 1)),
     (c! "USER_INTERFACES", .scalar (.str (c! "+"))), (c! "VERSION", .scalar (.int 1))] none none),
   (c! "cpack_ifw_configure_file", .dict (some (.dict { nargs := some (.int 2) })) [] [] none none),
   (c! "cpack_ifw_update_repository", .dict (some (.dict
     { nargs := some (.str (c! "1+")), flags := [c! "ADD", c! "REMOVE", c! "REPLACE", c! "DISABLED"] }))
     [] [(c! "DISPLAY_NAME", .scalar (.int 1)), (c! "NEW_URL", .scalar (.int 1)), (c! "OLD_URL",
     .scalar (.int 1)), (c! "PASSWORD", .scalar (.int 1)), (c! "URL", .scalar (.int 1)),
     (c! "USERNAME", .scalar (.int 1))] none none),
   (c! "cpack_optional_append", .dict (some (.dict { nargs := some (.int 3) })) [] [] none none),
   (c! "cpack_rpm_debugsymbol_check", .dict (some (.dict { nargs := some (.int 2) })) [] [] none
     none),
   (c! "cpack_rpm_generate_package", .dict (some (.dict { nargs := some (.int 0) })) [] [] none
     none),
   (c! "cpack_rpm_prepare_content_list", .dict (some (.dict { nargs := some (.int 0) })) [] [] none
     none),
   (c! "cpack_rpm_prepare_install_files", .dict (some (.dict { nargs := some (.int 4) })) [] []
     none none),
   (c! "cpack_rpm_prepare_relocation_paths", .dict (some (.dict { nargs := some (.int 0) })) [] []
     none none),
   (c! "cpack_rpm_symlink_add_for_relocation_script", .dict (some (.dict
     { nargs := some (.int 5) })) [] [] none none),
   (c! "cpack_rpm_symlink_create_relocation_script", .dict (some (.dict
     { nargs := some (.int 1) })) [] [] none none),
   (c! "cpack_rpm_symlink_get_relocation_prefixes", .dict (some (.dict { nargs := some (.int 3) }))
     [] [] none none),
   (c! "cpack_rpm_variable_fallback", .dict (some (.dict { nargs := some (.int 1) })) [] [] none
     none),
   (c! "cpack_set_if_not_set", .dict (some (.dict { nargs := some (.int 2) })) [] [] none none),
   (c! "create_javadoc", .dict (some (.dict { nargs := some (.int 1) })) [] [] none none),
   (c! "create_javah", .dict (some (.dict { nargs := some (.str (c! "*")) })) [] [(c! "CLASSES",
     .scalar (.str (c! "+"))), (c! "CLASSPATH", .scalar (.str (c! "+"))), (c! "DEPENDS", .scalar (.str
     (c! "+"))), (c! "GENERATED_FILES", .scalar (.int 1)), (c! "OUTPUT_DIR", .scalar (.int 1)),
     (c! "OUTPUT_NAME", .scalar (.int 1)), (c! "TARGET", .scalar (.int 1))] none none),
   (c! "crt_version", .dict (some (.dict { nargs := some (.int 2) })) [] [] none none),
   (c! "csharp_get_dependentupon_name", .dict (some (.dict { nargs := some (.int 2) })) [] [] none
     none),
   (c! "csharp_get_filename_key_base", .dict (some (.dict { nargs := some (.int 2) })) [] [] none
     none),
   (c! "csharp_get_filename_keys", .dict (some (.dict { nargs := some (.int 1) })) [] [] none none),
   (c! "csharp_set_designer_cs_properties", .dict (some (.dict { nargs := some (.int 0) })) [] []
     none none),
   (c! "csharp_set_windows_forms_properties", .dict (some (.dict { nargs := some (.int 0) })) [] []
     none none),
   (c! "csharp_set_xaml_cs_properties", .dict (some (.dict { nargs := some (.int 0) })) [] [] none
     none),
   (c! "ctest_coverage_collect_gcov", .dict (some (.dict
     { nargs := some (.str (c! "*")), flags := [c! "QUIET", c! "GLOB", c! "DELETE"] })) []
     [(c! "BUILD", .scalar (.int 1)), (c! "GCOV_COMMAND", .scalar (.int 1)), (c! "GCOV_OPTIONS",
     .scalar (.str (c! "+"))), (c! "SOURCE", .scalar (.int 1)), (c! "TARBALL", .scalar (.int 1))]
     none none),
   (c! "cuda_add_cublas_to_target", .dict (some (.dict { nargs := some (.int 1) })) [] [] none
     none),
   (c! "cuda_add_cuda_include_once", .dict (some (.dict { nargs := some (.int 0) })) [] [] none
     none),
   (c! "cuda_add_cufft_to_target", .dict (some (.dict { nargs := some (.int 1) })) [] [] none none),
   (c! "cuda_add_executable", .dict (some (.dict { nargs := some (.int 1) })) [] [] none none),
   (c! "cuda_add_library", .dict (some (.dict { nargs := some (.int 1) })) [] [] none none),
   (c! "cuda_build_clean_target", .dict (some (.dict { nargs := some (.int 0) })) [] [] none none),
   (c! "cuda_build_shared_library", .dict (some (.dict { nargs := some (.int 1) })) [] [] none
     none),
   (c! "cuda_compile", .dict (some (.dict { nargs := some (.int 1) })) [] [] none none),
   (c! "cuda_compile_base", .dict (some (.dict { nargs := some (.int 3) })) [] [] none none)]

/-- `FUNSPECS`, funs/standard_modules.py:6-1998, part 4. -/
def modules4 : List (Str × Decl) :=
  [(c! "cuda_compile_cubin", .dict (some (.dict { nargs := some (.int 1) })) [] [] none none),
   (c! "cuda_compile_fatbin", .dict (some (.dict { nargs := some (.int 1) })) [] [] none none),
   (c! "cuda_compile_ptx", .dict (some (.dict { nargs := some (.int 1) })) [] [] none none),
   (c! "cuda_compute_build_path", .dict (some (.dict { nargs := some (.int 2) })) [] [] none none),
   (c! "cuda_compute_separable_compilation_object_file_name", .dict (some (.dict
     { nargs := some (.int 3) })) [] [] none none),
   (c! "cuda_find_helper_file", .dict (some (.dict { nargs := some (.int 2) })) [] [] none none),
   (c! "cuda_find_host_program", .dict (some (.dict { nargs := some (.int 0) })) [] [] none none),
   (c! "cuda_find_library_local_first", .dict (some (.dict { nargs := some (.int 3) })) [] [] none
     none),
   (c! "cuda_find_library_local_first_with_path_ext", .dict (some (.dict
     { nargs := some (.int 4) })) [] [] none none),
   (c! "cuda_get_sources_and_options", .dict (some (.dict { nargs := some (.int 3) })) [] [] none
     none),
   (c! "cuda_include_directories", .dict (some (.dict { nargs := some (.int 0) })) [] [] none none),
   (c! "cuda_include_nvcc_dependencies", .dict (some (.dict { nargs := some (.int 1) })) [] [] none
     none),
   (c! "cuda_link_separable_compilation_objects", .dict (some (.dict { nargs := some (.int 4) }))
     [] [] none none),
   (c! "cuda_parse_nvcc_options", .dict (some (.dict { nargs := some (.int 1) })) [] [] none none),
   (c! "cuda_unset_include_and_libraries", .dict (some (.dict { nargs := some (.int 0) })) [] []
     none none),
   (c! "cuda_wrap_srcs", .dict (some (.dict { nargs := some (.int 3) })) [] [] none none),
   (c! "cxxtest_add_test", .dict (some (.dict { nargs := some (.int 2) })) [] [] none none),
   (c! "dbg_msg", .dict (some (.dict { nargs := some (.int 1) })) [] [] none none),
   (c! "dbg_msg_v", .dict (some (.dict { nargs := some (.int 1) })) [] [] none none),
   (c! "determinevsservicepack", .dict (some (.dict { nargs := some (.int 1) })) [] [] (some
     (c! "DetermineVSServicePack")) none),
   (c! "doxygen_add_docs", .dict (some (.dict { nargs := some (.str (c! "1+")) })) [] [(c! "COMMENT",
     .scalar (.int 1)), (c! "WORKING_DIRECTORY", .scalar (.int 1))] none none),
   (c! "doxygen_list_to_quoted_strings", .dict (some (.dict { nargs := some (.int 1) })) [] [] none
     none),
   (c! "doxygen_quote_value", .dict (some (.dict { nargs := some (.int 1) })) [] [] none none),
   (c! "dump_file", .dict (some (.dict { nargs := some (.int 1) })) [] [] none none),
   (c! "ecos_add_executable", .dict (some (.dict { nargs := some (.int 1) })) [] [] none none),
   (c! "ecos_add_include_directories", .dict (some (.dict { nargs := some (.int 0) })) [] [] none
     none),
   (c! "ecos_add_target_lib", .dict (some (.dict { nargs := some (.int 0) })) [] [] none none),
   (c! "ecos_adjust_directory", .dict (some (.dict { nargs := some (.int 1) })) [] [] none none),
   (c! "ecos_use_arm_elf_tools", .dict (some (.dict { nargs := some (.int 0) })) [] [] none none),
   (c! "ecos_use_i386_elf_tools", .dict (some (.dict { nargs := some (.int 0) })) [] [] none none),
   (c! "ecos_use_ppc_eabi_tools", .dict (some (.dict { nargs := some (.int 0) })) [] [] none none),
   (c! "enable_language", .dict (some (.dict { nargs := some (.int 0) })) [] [] none none),
   (c! "export_jars", .dict (some (.dict { nargs := some (.str (c! "*")) })) [] [(c! "FILE", .scalar
     (.int 1)), (c! "NAMESPACE", .scalar (.int 1)), (c! "TARGETS", .scalar (.str (c! "+")))] none
     none),
   (c! "externaldata_add_target", .dict (some (.dict { nargs := some (.int 1) })) [] [] (some
     (c! "ExternalData_add_target")) none),
   (c! "externaldata_add_test", .dict (some (.dict { nargs := some (.int 1) })) [] [] (some
     (c! "ExternalData_add_test")) none),
   (c! "externaldata_expand_arguments", .dict (some (.dict { nargs := some (.int 2) })) [] [] (some
     (c! "ExternalData_expand_arguments")) none),
   (c! "extract_matlab_versions_from_registry_brute_force", .dict (some (.dict
     { nargs := some (.int 1) })) [] [] none none),
   (c! "extract_so_info", .dict (some (.dict { nargs := some (.int 3) })) [] [] none none),
   (c! "feature_summary", .dict (some (.dict
     { nargs := some (.str (c! "*")), flags := [c! "APPEND", c! "INCLUDE_QUIET_PACKAGES", c! "FATAL_ON_MISSING_REQUIRED_PACKAGES", c! "QUIET_ON_EMPTY", c! "DEFAULT_DESCRIPTION"] }))
     [] [(c! "DESCRIPTION", .scalar (.int 1)), (c! "FILENAME", .scalar (.int 1)), (c! "VAR", .scalar
     (.int 1)), (c! "WHAT", .scalar (.str (c! "+")))] none none),
   (c! "find_cuda_helper_libs", .dict (some (.dict { nargs := some (.int 1) })) [] [] none none)]

/-- `FUNSPECS`, funs/standard_modules.py:6-1998, part 5. -/
def modules5 : List (Str × Decl) :=
  [(c! "find_dependency", .dict (some (.dict { nargs := some (.int 1) })) [] [] none none),
   (c! "find_imagemagick_api", .dict (some (.dict { nargs := some (.int 2) })) [] [] none none),
   (c! "find_imagemagick_exe", .dict (some (.dict { nargs := some (.int 1) })) [] [] none none),
   (c! "find_jar", .dict (some (.dict { nargs := some (.int 1) })) [] [] none none),
   (c! "find_library_local_first", .dict (some (.dict { nargs := some (.int 3) })) [] [] none none),
   (c! "find_package_handle_standard_args", .dict (some (.dict
     { nargs := some (.str (c! "2+")), flags := [c! "CONFIG_MODE", c! "HANDLE_COMPONENTS"] })) []
     [(c! "FAIL_MESSAGE", .scalar (.int 1)), (c! "FOUND_VAR", .scalar (.int 1)), (c! "REQUIRED_VARS",
     .scalar (.str (c! "+"))), (c! "VERSION_VAR", .scalar (.int 1))] none none),
   (c! "find_package_message", .dict (some (.dict { nargs := some (.int 3) })) [] [] none none),
   (c! "fixup_bundle", .dict (some (.dict { nargs := some (.str (c! "3+")) })) [] [(c! "IGNORE_ITEM",
     .scalar (.str (c! "+")))] none none),
   (c! "fixup_bundle_item", .dict (some (.dict { nargs := some (.int 3) })) [] [] none none),
   (c! "fixup_qt4_executable", .dict (some (.dict { nargs := some (.int 1) })) [] [] none none),
   (c! "flex_target", .dict (some (.dict { nargs := some (.str (c! "3+")) })) []
     [(c! "COMPILE_FLAGS", .scalar (.int 1)), (c! "DEFINES_FILE", .scalar (.int 1))] none none),
   (c! "fortrancinterface_header", .dict (some (.dict { nargs := some (.int 1) })) [] [] (some
     (c! "FortranCInterface_HEADER")) none),
   (c! "fortrancinterface_verify", .dict (some (.dict { nargs := some (.int 0) })) [] [] (some
     (c! "FortranCInterface_VERIFY")) none),
   (c! "from_hex", .dict (some (.dict { nargs := some (.int 2) })) [] [] none none),
   (c! "generate_export_header", .dict (some (.dict { nargs := some (.int 1) })) [] [] none none),
   (c! "get_bundle_all_executables", .dict (some (.dict { nargs := some (.int 2) })) [] [] none
     none),
   (c! "get_bundle_and_executable", .dict (some (.dict { nargs := some (.int 4) })) [] [] none
     none),
   (c! "get_bundle_keys", .dict (some (.dict { nargs := some (.str (c! "4+")) })) []
     [(c! "IGNORE_ITEM", .scalar (.str (c! "+")))] none none),
   (c! "get_bundle_main_executable", .dict (some (.dict { nargs := some (.int 2) })) [] [] none
     none),
   (c! "get_component_package_name", .dict (some (.dict { nargs := some (.int 2) })) [] [] none
     none),
   (c! "get_dotapp_dir", .dict (some (.dict { nargs := some (.int 2) })) [] [] none none),
   (c! "get_item_key", .dict (some (.dict { nargs := some (.int 2) })) [] [] none none),
   (c! "get_item_rpaths", .dict (some (.dict { nargs := some (.int 2) })) [] [] none none),
   (c! "get_prerequisites", .dict (some (.dict { nargs := some (.int 6) })) [] [] none none),
   (c! "get_unix_permissions_octal_notation", .dict (some (.dict { nargs := some (.int 2) })) [] []
     none none),
   (c! "get_vs_version_string", .dict (some (.dict { nargs := some (.int 2) })) [] [] none none),
   (c! "getdefaultwindowsprefixbase", .dict (some (.dict { nargs := some (.int 1) })) [] [] (some
     (c! "GetDefaultWindowsPrefixBase")) none),
   (c! "gettext_create_translations", .dict (some (.dict { nargs := some (.int 2) })) [] [] none
     none),
   (c! "gettext_process_po_files", .dict (some (.dict
     { nargs := some (.str (c! "1+")), flags := [c! "ALL"] })) [] [(c! "INSTALL_DESTINATION", .scalar
     (.int 1)), (c! "PO_FILES", .scalar (.str (c! "+")))] none none),
   (c! "gettext_process_pot_file", .dict (some (.dict
     { nargs := some (.str (c! "1+")), flags := [c! "ALL"] })) [] [(c! "INSTALL_DESTINATION", .scalar
     (.int 1)), (c! "LANGUAGES", .scalar (.str (c! "+")))] none none),
   (c! "gnuinstalldirs_get_absolute_install_dir", .dict (some (.dict { nargs := some (.int 2) }))
     [] [] (some (c! "GNUInstallDirs_get_absolute_install_dir")) none),
   (c! "gp_append_unique", .dict (some (.dict { nargs := some (.int 2) })) [] [] none none),
   (c! "gp_file_type", .dict (some (.dict { nargs := some (.int 3) })) [] [] none none),
   (c! "gp_item_default_embedded_path", .dict (some (.dict { nargs := some (.int 2) })) [] [] none
     none),
   (c! "gp_resolve_item", .dict (some (.dict { nargs := some (.int 5) })) [] [] none none),
   (c! "gp_resolved_file_type", .dict (some (.dict { nargs := some (.int 5) })) [] [] none none),
   (c! "gtest_add_tests", .dict (some (.dict
     { nargs := some (.str (c! "*")), flags := [c! "SKIP_DEPENDENCY"] })) [] [(c! "EXTRA_ARGS",
     .scalar (.str (c! "+"))), (c! "SOURCES", .scalar (.str (c! "+"))), (c! "TARGET", .scalar (.int
     1)), (c! "TEST_LIST", .scalar (.int 1)), (c! "TEST_PREFIX", .scalar (.int 1)),
     (c! "TEST_SUFFIX", .scalar (.int 1)), (c! "WORKING_DIRECTORY", .scalar (.int 1))] none none),
   (c! "gtest_discover_tests", .dict (some (.dict
     { nargs := some (.str (c! "1+")), flags := [c! "NO_PRETTY_TYPES", c! "NO_PRETTY_VALUES"] })) []
     [(c! "EXTRA_ARGS", .scalar (.str (c! "+"))), (c! "PROPERTIES", .scalar (.str (c! "+"))),
     (c! "TEST_LIST", .scalar (.int 1)), (c! "TEST_PREFIX", .scalar (.int 1)), (c! "TEST_SUFFIX",
     .scalar (.int 1)), (c! "TIMEOUT", .scalar (.int 1)), (c! "WORKING_DIRECTORY", .scalar (.int
     1))] none none),
   (c! "hg_wc_info", .dict (some (.dict { nargs := some (.int 2) })) [] [] none none),
   (c! "install_jar", .dict (some (.dict { nargs := some (.str (c! "1+")) })) [] [(c! "COMPONENT",
     .scalar (.int 1)), (c! "DESTINATION", .scalar (.int 1))] none none)]

/-- `FUNSPECS`, funs/standard_modules.py:6-1998, part 6. -/
def modules6 : List (Str × Decl) :=
  [(c! "install_jar_exports", .dict (some (.dict { nargs := some (.str (c! "*")) })) []
     [(c! "COMPONENT", .scalar (.int 1)), (c! "DESTINATION", .scalar (.int 1)), (c! "FILE", .scalar
     (.int 1)), (c! "NAMESPACE", .scalar (.int 1)), (c! "TARGETS", .scalar (.str (c! "+")))] none
     none),
   (c! "install_jni_symlink", .dict (some (.dict { nargs := some (.str (c! "1+")) })) []
     [(c! "COMPONENT", .scalar (.int 1)), (c! "DESTINATION", .scalar (.int 1))] none none),
   (c! "install_qt4_executable", .dict (some (.dict { nargs := some (.int 1) })) [] [] none none),
   (c! "install_qt4_plugin", .dict (some (.dict { nargs := some (.int 4) })) [] [] none none),
   (c! "install_qt4_plugin_path", .dict (some (.dict { nargs := some (.int 4) })) [] [] none none),
   (c! "ios_install_combined", .dict (some (.dict { nargs := some (.int 2) })) [] [] none none),
   (c! "is_file_executable", .dict (some (.dict { nargs := some (.int 2) })) [] [] none none),
   (c! "java_append_library_directories", .dict (some (.dict { nargs := some (.int 1) })) [] []
     none none),
   (c! "kde3_add_dcop_skels", .dict (some (.dict { nargs := some (.int 1) })) [] [] none none),
   (c! "kde3_add_dcop_stubs", .dict (some (.dict { nargs := some (.int 1) })) [] [] none none),
   (c! "kde3_add_executable", .dict (some (.dict { nargs := some (.int 1) })) [] [] none none),
   (c! "kde3_add_kcfg_files", .dict (some (.dict { nargs := some (.int 1) })) [] [] none none),
   (c! "kde3_add_kdeinit_executable", .dict (some (.dict { nargs := some (.int 1) })) [] [] none
     none),
   (c! "kde3_add_kpart", .dict (some (.dict { nargs := some (.int 2) })) [] [] none none),
   (c! "kde3_add_moc_files", .dict (some (.dict { nargs := some (.int 1) })) [] [] none none),
   (c! "kde3_add_ui_files", .dict (some (.dict { nargs := some (.int 1) })) [] [] none none),
   (c! "kde3_automoc", .dict (some (.dict { nargs := some (.int 0) })) [] [] none none),
   (c! "kde3_create_final_file", .dict (some (.dict { nargs := some (.int 1) })) [] [] none none),
   (c! "kde3_install_icons", .dict (some (.dict { nargs := some (.int 1) })) [] [] none none),
   (c! "kde3_install_libtool_file", .dict (some (.dict { nargs := some (.int 1) })) [] [] none
     none),
   (c! "kde3_print_results", .dict (some (.dict { nargs := some (.int 0) })) [] [] none none),
   (c! "link_resolved_item_into_bundle", .dict (some (.dict { nargs := some (.int 2) })) [] [] none
     none),
   (c! "list_prerequisites", .dict (some (.dict { nargs := some (.int 1) })) [] [] none none),
   (c! "list_prerequisites_by_glob", .dict (some (.dict { nargs := some (.int 2) })) [] [] none
     none),
   (c! "macro_add_file_dependencies", .dict (some (.dict { nargs := some (.int 1) })) [] [] none
     none),
   (c! "matlab_add_mex", .dict (some (.dict
     { nargs := some (.str (c! "*")), flags := [c! "EXECUTABLE", c! "MODULE", c! "SHARED"] })) []
     [(c! "DOCUMENTATION", .scalar (.int 1)), (c! "LINK_TO", .scalar (.str (c! "+"))), (c! "NAME",
     .scalar (.int 1)), (c! "OUTPUT_NAME", .scalar (.int 1)), (c! "SRC", .scalar (.str (c! "+")))]
     none none),
   (c! "matlab_add_unit_test", .dict (some (.dict
     { nargs := some (.str (c! "*")), flags := [c! "0"] })) [] [(c! "NO_UNITTEST_FRAMEWORK", .scalar
     (.str (c! "+"))), (c! "_MATLAB_UNITTEST_PREFIX", .scalar (.int 1))] none none),
   (c! "matlab_extract_all_installed_versions_from_registry", .dict (some (.dict
     { nargs := some (.int 2) })) [] [] none none),
   (c! "matlab_get_all_valid_matlab_roots_from_registry", .dict (some (.dict
     { nargs := some (.int 2) })) [] [] none none),
   (c! "matlab_get_mex_suffix", .dict (some (.dict { nargs := some (.int 2) })) [] [] none none),
   (c! "matlab_get_release_name_from_version", .dict (some (.dict { nargs := some (.int 2) })) []
     [] none none),
   (c! "matlab_get_supported_releases", .dict (some (.dict { nargs := some (.int 1) })) [] [] none
     none),
   (c! "matlab_get_supported_versions", .dict (some (.dict { nargs := some (.int 1) })) [] [] none
     none),
   (c! "matlab_get_version_from_matlab_run", .dict (some (.dict { nargs := some (.int 2) })) [] []
     none none),
   (c! "matlab_get_version_from_release_name", .dict (some (.dict { nargs := some (.int 2) })) []
     [] none none),
   (c! "mpi_search_mpi_prefix_folder", .dict (some (.dict { nargs := some (.int 1) })) [] [] (some
     (c! "MPI_search_mpi_prefix_folder")) none),
   (c! "msg", .dict (some (.dict { nargs := some (.int 1) })) [] [] none none),
   (c! "osg_find_library", .dict (some (.dict { nargs := some (.int 2) })) [] [] none none),
   (c! "osg_find_path", .dict (some (.dict { nargs := some (.int 2) })) [] [] none none),
   (c! "osg_mark_as_advanced", .dict (some (.dict { nargs := some (.int 1) })) [] [] none none)]

/-- `FUNSPECS`, funs/standard_modules.py:6-1998, part 7. -/
def modules7 : List (Str × Decl) :=
  [(c! "perl_adjust_darwin_lib_variable", .dict (some (.dict { nargs := some (.int 1) })) [] []
     none none),
   (c! "pkg_check_modules", .dict (some (.dict { nargs := some (.int 2) })) [] [] none none),
   (c! "pkg_get_variable", .dict (some (.dict { nargs := some (.int 3) })) [] [] none none),
   (c! "pkg_search_module", .dict (some (.dict { nargs := some (.int 2) })) [] [] none none),
   (c! "pkgconfig", .dict (some (.dict { nargs := some (.int 5) })) [] [] none none),
   (c! "print_disabled_features", .dict (some (.dict { nargs := some (.int 0) })) [] [] none none),
   (c! "print_enabled_features", .dict (some (.dict { nargs := some (.int 0) })) [] [] none none),
   (c! "printtestcompilerstatus", .dict (some (.dict { nargs := some (.int 2) })) [] [] (some
     (c! "PrintTestCompilerStatus")) none),
   (c! "processorcount", .dict (some (.dict { nargs := some (.int 1) })) [] [] (some
     (c! "ProcessorCount")) none),
   (c! "protobuf_generate_cpp", .dict (some (.dict { nargs := some (.str (c! "2+")) })) []
     [(c! "DESCRIPTORS", .scalar (.int 1)), (c! "EXPORT_MACRO", .scalar (.int 1))] none none),
   (c! "protobuf_generate_python", .dict (some (.dict { nargs := some (.int 1) })) [] [] none none),
   (c! "python_add_module", .dict (some (.dict { nargs := some (.int 1) })) [] [] none none),
   (c! "python_write_modules_header", .dict (some (.dict { nargs := some (.int 1) })) [] [] none
     none),
   (c! "qt4_add_dbus_adaptor", .dict (some (.dict { nargs := some (.int 4) })) [] [] none none),
   (c! "qt4_add_dbus_interface", .dict (some (.dict { nargs := some (.int 3) })) [] [] none none),
   (c! "qt4_add_dbus_interfaces", .dict (some (.dict { nargs := some (.int 1) })) [] [] none none),
   (c! "qt4_add_resources", .dict (some (.dict { nargs := some (.int 1) })) [] [] none none),
   (c! "qt4_add_translation", .dict (some (.dict { nargs := some (.int 1) })) [] [] none none),
   (c! "qt4_automoc", .dict (some (.dict { nargs := some (.int 0) })) [] [] none none),
   (c! "qt4_create_moc_command", .dict (some (.dict { nargs := some (.int 5) })) [] [] none none),
   (c! "qt4_create_translation", .dict (some (.dict { nargs := some (.int 1) })) [] [] none none),
   (c! "qt4_extract_options", .dict (some (.dict { nargs := some (.int 3) })) [] [] none none),
   (c! "qt4_generate_dbus_interface", .dict (some (.dict { nargs := some (.int 1) })) [] [] none
     none),
   (c! "qt4_generate_moc", .dict (some (.dict { nargs := some (.int 2) })) [] [] none none),
   (c! "qt4_get_moc_flags", .dict (some (.dict { nargs := some (.int 1) })) [] [] none none),
   (c! "qt4_make_output_file", .dict (some (.dict { nargs := some (.int 4) })) [] [] none none),
   (c! "qt4_use_modules", .dict (some (.dict { nargs := some (.int 2) })) [] [] none none),
   (c! "qt4_wrap_cpp", .dict (some (.dict { nargs := some (.int 1) })) [] [] none none),
   (c! "qt4_wrap_ui", .dict (some (.dict { nargs := some (.int 1) })) [] [] none none),
   (c! "resolve_qt4_paths", .dict (some (.dict { nargs := some (.int 1) })) [] [] none none),
   (c! "rti_message_quietly", .dict (some (.dict { nargs := some (.int 3) })) [] [] none none),
   (c! "select_library_configurations", .dict (some (.dict { nargs := some (.int 1) })) [] [] none
     none),
   (c! "set_bundle_key_values", .dict (some (.dict { nargs := some (.int 6) })) [] [] none none),
   (c! "set_compile_flags_var", .dict (some (.dict { nargs := some (.int 1) })) [] [] none none),
   (c! "set_feature_info", .dict (some (.dict { nargs := some (.int 0) })) [] [] none none),
   (c! "set_if_not_set", .dict (some (.dict { nargs := some (.int 2) })) [] [] none none),
   (c! "set_if_set", .dict (some (.dict { nargs := some (.int 2) })) [] [] none none),
   (c! "set_if_set_and_not_set", .dict (some (.dict { nargs := some (.int 2) })) [] [] none none),
   (c! "set_link_flags_var", .dict (some (.dict { nargs := some (.int 1) })) [] [] none none),
   (c! "set_package_info", .dict (some (.dict { nargs := some (.int 2) })) [] [] none none)]

/-- `FUNSPECS`, funs/standard_modules.py:6-1998, part 8. -/
def modules8 : List (Str × Decl) :=
  [(c! "set_package_properties", .dict (some (.dict { nargs := some (.str (c! "2+")) })) []
     [(c! "DESCRIPTION", .scalar (.int 1)), (c! "PURPOSE", .scalar (.int 1)), (c! "TYPE", .scalar
     (.int 1)), (c! "URL", .scalar (.int 1))] none none),
   (c! "source_files", .dict (some (.dict { nargs := some (.int 0) })) [] [] none none),
   (c! "squish_add_test", .dict (some (.dict { nargs := some (.int 0) })) [] [] none none),
   (c! "squish_v3_add_test", .dict (some (.dict { nargs := some (.int 5) })) [] [] none none),
   (c! "squish_v4_add_test", .dict (some (.dict { nargs := some (.str (c! "1+")) })) [] [(c! "AUT",
     .scalar (.int 1)), (c! "POST_COMMAND", .scalar (.int 1)), (c! "PRE_COMMAND", .scalar (.int 1)),
     (c! "SETTINGSGROUP", .scalar (.int 1)), (c! "SUITE", .scalar (.int 1)), (c! "TEST", .scalar
     (.int 1))] none none),
   (c! "subversion_wc_info", .dict (some (.dict { nargs := some (.int 2) })) [] [] (some
     (c! "Subversion_WC_INFO")) none),
   (c! "subversion_wc_log", .dict (some (.dict { nargs := some (.int 2) })) [] [] (some
     (c! "Subversion_WC_LOG")) none),
   (c! "swig_add_library", .dict (some (.dict { nargs := some (.str (c! "1+")) })) []
     [(c! "LANGUAGE", .scalar (.int 1)), (c! "SOURCES", .scalar (.str (c! "+"))), (c! "TYPE", .scalar
     (.int 1))] none none),
   (c! "swig_add_module", .dict (some (.dict { nargs := some (.int 2) })) [] [] none none),
   (c! "swig_add_source_to_module", .dict (some (.dict { nargs := some (.int 3) })) [] [] none
     none),
   (c! "swig_get_extra_output_files", .dict (some (.dict { nargs := some (.int 4) })) [] [] none
     none),
   (c! "swig_link_libraries", .dict (some (.dict { nargs := some (.int 1) })) [] [] none none),
   (c! "swig_module_initialize", .dict (some (.dict { nargs := some (.int 2) })) [] [] none none),
   (c! "test_big_endian", .dict (some (.dict { nargs := some (.int 1) })) [] [] none none),
   (c! "verify_app", .dict (some (.dict { nargs := some (.str (c! "1+")) })) [] [(c! "IGNORE_ITEM",
     .scalar (.str (c! "+")))] none none),
   (c! "verify_bundle_prerequisites", .dict (some (.dict { nargs := some (.str (c! "3+")) })) []
     [(c! "IGNORE_ITEM", .scalar (.str (c! "+")))] none none),
   (c! "verify_bundle_symlinks", .dict (some (.dict { nargs := some (.int 3) })) [] [] none none),
   (c! "write_basic_config_version_file", .dict (some (.dict { nargs := some (.str (c! "1+")) })) []
     [(c! "COMPATIBILITY", .scalar (.int 1)), (c! "VERSION", .scalar (.int 1))] none none),
   (c! "write_basic_package_version_file", .dict (some (.dict { nargs := some (.int 0) })) []
     [(c! "COMPATIBILITY", .scalar (.int 1)), (c! "VERSION", .scalar (.int 1))] none none),
   (c! "write_compiler_detection_header", .dict (some (.dict
     { nargs := some (.str (c! "4+")), flags := [c! "ALLOW_UNKNOWN_COMPILERS", c! "ALLOW_UNKNOWN_COMPILER_VERSIONS"] }))
     [] [(c! "COMPILERS", .scalar (.str (c! "+"))), (c! "EPILOG", .scalar (.int 1)), (c! "FEATURES",
     .scalar (.str (c! "+"))), (c! "OUTPUT_DIR", .scalar (.int 1)), (c! "OUTPUT_FILES_VAR", .scalar
     (.int 1)), (c! "PROLOG", .scalar (.int 1)), (c! "VERSION", .scalar (.int 1))] none none),
   (c! "write_qt4_conf", .dict (some (.dict { nargs := some (.int 2) })) [] [] none none),
   (c! "wx_clear_all_dbg_libs", .dict (some (.dict { nargs := some (.int 0) })) [] [] none none),
   (c! "wx_clear_all_libs", .dict (some (.dict { nargs := some (.int 1) })) [] [] none none),
   (c! "wx_clear_all_rel_libs", .dict (some (.dict { nargs := some (.int 0) })) [] [] none none),
   (c! "wx_clear_lib", .dict (some (.dict { nargs := some (.int 1) })) [] [] none none),
   (c! "wx_config_select_get_default", .dict (some (.dict { nargs := some (.int 0) })) [] [] none
     none),
   (c! "wx_config_select_query_bool", .dict (some (.dict { nargs := some (.int 2) })) [] [] none
     none),
   (c! "wx_config_select_set_options", .dict (some (.dict { nargs := some (.int 0) })) [] [] none
     none),
   (c! "wx_find_libs", .dict (some (.dict { nargs := some (.int 3) })) [] [] none none),
   (c! "wx_get_dependencies_from_xml", .dict (some (.dict { nargs := some (.int 5) })) [] [] none
     none),
   (c! "wx_get_name_components", .dict (some (.dict { nargs := some (.int 4) })) [] [] none none),
   (c! "wx_set_libraries", .dict (some (.dict { nargs := some (.int 2) })) [] [] none none),
   (c! "wx_split_arguments_on", .dict (some (.dict { nargs := some (.int 3) })) [] [] none none),
   (c! "wxwidgets_add_resources", .dict (some (.dict { nargs := some (.int 1) })) [] [] none none),
   (c! "xctest_add_bundle", .dict (some (.dict { nargs := some (.int 2) })) [] [] none none),
   (c! "xctest_add_test", .dict (some (.dict { nargs := some (.int 2) })) [] [] none none)]

/-- `FUNSPECS`, funs/standard_modules.py:6-1998. -/
def modules : List (Str × Decl) :=
  modules1 ++ modules2 ++ modules3 ++ modules4 ++ modules5 ++ modules6 ++ modules7 ++ modules8

/-- `ADDITIONAL_COMMANDS_DEMO`, configuration.py:180-189. -/
def demo : List (Str × Decl) :=
  [(c! "foo", .dict none [c! "BAR", c! "BAZ"] [(c! "HEADERS", .scalar (.str (c! "*"))), (c! "SOURCES",
     .scalar (.str (c! "*"))), (c! "DEPENDS", .scalar (.str (c! "*")))] none none)]

end Verif.Parse.Tables
