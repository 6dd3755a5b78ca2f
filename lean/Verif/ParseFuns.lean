import Verif.Parse

/-!
# The argument parsers that are one call of `StandardArgTree.parse`

Every function of `cmakelang/parse/funs/*.py` whose body is a single call of
`StandardArgTree.parse` with literal tables, and the table entries made with
`StandardParser`.  The tables are copied from the code by a script.  Missing keywords are
only linted (`check_required_kwargs`), so they are left out.
-/

namespace Verif.Parse.Funs
open Verif Py Lex Parse

/-- `PatternNode.parse`, additional_nodes.py:148-163. -/
def pattern : ArgP :=
  std (.str (S "+")) [(S "PERMISSIONS", pos (.str (S "+")))] [S "EXCLUDE"]

/-- `parse_add_executable_imported`, funs/add_executable.py:21-33. -/
def addExecutableImported : ArgP :=
  std (.str (S "+")) [] [S "IMPORTED", S "GLOBAL"]

/-- `parse_add_executable_alias`, funs/add_executable.py:36-47. -/
def addExecutableAlias : ArgP :=
  std (.int 3) [] [S "ALIAS"]

/-- `parse_add_library_imported`, funs/add_library.py:125-138. -/
def addLibraryImported : ArgP :=
  std (.str (S "+")) [] [S "SHARED", S "STATIC", S "MODULE", S "OBJECT", S "UNKOWN", S "IMPORTED",
    S "GLOBAL"]

/-- `parse_add_library_alias`, funs/add_library.py:190-201. -/
def addLibraryAlias : ArgP :=
  std (.int 3) [] [S "ALIAS"]

/-- `parse_add_library_interface`, funs/add_library.py:204-215. -/
def addLibraryInterface : ArgP :=
  std (.str (S "+")) [] [S "INTERFACE", S "IMPORTED", S "GLOBAL"]

/-- `parse_add_custom_command_events`, funs/add_xxx.py:23-58. -/
def addCustomCommandEvents : ArgP :=
  std (.str (S "*")) [(S "BYPRODUCTS", pos (.str (S "*"))), (S "COMMAND", .shell), (S "COMMENT",
    pos (.str (S "*"))), (S "TARGET", pos (.int 1)), (S "WORKING_DIRECTORY",
    pos (.int 1))] [S "APPEND", S "VERBATIM", S "USES_TERMINAL", S "COMMAND_EXPAND_LISTS",
    S "PRE_BUILD", S "PRE_LINK", S "POST_BUILD"]

/-- `parse_add_custom_command_standard`, funs/add_xxx.py:61-107. -/
def addCustomCommandStandard : ArgP :=
  std (.str (S "*")) [(S "BYPRODUCTS", pos (.str (S "*"))), (S "COMMAND", .shell), (S "COMMENT",
    pos (.str (S "*"))), (S "DEPENDS", pos (.str (S "*"))), (S "DEPFILE", pos (.int 1)),
    (S "JOB_POOL", pos (.int 1)), (S "IMPLICIT_DEPENDS", .tuple (.str (S "+")) 2 []),
    (S "MAIN_DEPENDENCY", pos (.int 1)), (S "OUTPUT", pos (.str (S "+"))), (S "WORKING_DIRECTORY",
    pos (.int 1))] [S "APPEND", S "VERBATIM", S "USES_TERMINAL", S "COMMAND_EXPAND_LISTS"]

/-- `parse_add_compile_options`, funs/add_xxx.py:274-282. -/
def addCompileOptions : ArgP :=
  std (.str (S "+"))

/-- `parse_add_definitions`, funs/add_xxx.py:285-293. -/
def addDefinitions : ArgP :=
  std (.str (S "+"))

/-- `parse_add_dependencies`, funs/add_xxx.py:296-305. -/
def addDependencies : ArgP :=
  std (.str (S "2+"))

/-- `parse_add_subdirectory`, funs/add_xxx.py:308-318. -/
def addSubdirectory : ArgP :=
  std (.str (S "+")) [] [S "EXCLUDE_FROM_ALL"]

/-- `parse_aux_source_directory`, funs/add_xxx.py:321-331. -/
def auxSourceDirectory : ArgP :=
  std (.str (S "2"))

/-- `parse_build_name`, funs/deprecated.py:10-18. -/
def buildName : ArgP :=
  std (.int 1)

/-- `parse_exec_program`, funs/deprecated.py:21-38. -/
def execProgram : ArgP :=
  std (.int 2) [(S "ARGS", pos (.str (S "+"))), (S "OUTPUT_VARIABLE", pos (.int 1)),
    (S "RETURN_VALUE", pos (.int 1))]

/-- `parse_install_targets`, funs/deprecated.py:85-96. -/
def oldInstallTargets : ArgP :=
  std (.str (S "2+")) [(S "RUNTIME_DIRECTORY", pos (.int 1))]

/-- `parse_make_directory`, funs/deprecated.py:99-107. -/
def makeDirectory : ArgP :=
  std (.int 1)

/-- `parse_remove`, funs/deprecated.py:110-118. -/
def remove : ArgP :=
  std (.str (S "2+"))

/-- `parse_subdir_depends`, funs/deprecated.py:121-129. -/
def subdirDepends : ArgP :=
  std (.str (S "2+"))

/-- `parse_subdirs`, funs/deprecated.py:132-145. -/
def subdirs : ArgP :=
  std (.str (S "+")) [(S "EXCLUDE_FROM_ALL", pos (.str (S "+")))] [S "PREORDER"]

/-- `parse_use_mangled_mesa`, funs/deprecated.py:148-156. -/
def useMangledMesa : ArgP :=
  std (.int 2)

/-- `parse_utility_source`, funs/deprecated.py:159-168. -/
def utilitySource : ArgP :=
  std (.str (S "3+"))

/-- `parse_variable_requires`, funs/deprecated.py:171-181. -/
def variableRequires : ArgP :=
  std (.str (S "3+"))

/-- `parse_write_file`, funs/deprecated.py:184-192. -/
def writeFile : ArgP :=
  std (.str (S "2+")) [] [S "APPEND"]

/-- `parse_external_project_add`, funs/external_project.py:6-119. -/
def externalProjectAdd : ArgP :=
  std (.int 1) [(S "PREFIX", pos (.int 1)), (S "TMP_DIR", pos (.int 1)), (S "STAMP_DIR",
    pos (.int 1)), (S "LOG_DIR", pos (.int 1)), (S "DOWNLOAD_DIR", pos (.int 1)), (S "SOURCE_DIR",
    pos (.int 1)), (S "BINARY_DIR", pos (.int 1)), (S "INSTALL_DIR", pos (.int 1)),
    (S "DOWNLOAD_COMMAND", .shell), (S "URL", pos (.str (S "+"))), (S "URL_HASH", pos (.int 1)),
    (S "URL_MD5", pos (.int 1)), (S "DOWNLOAD_NAME", pos (.int 1)), (S "DOWNLOAD_NO_EXTRACT",
    pos (.int 1)), (S "DOWNLOAD_NO_PROGRESS", pos (.int 1)), (S "TIMEOUT", pos (.int 1)),
    (S "HTTP_USERNAME", pos (.int 1)), (S "HTTP_PASSWORD", pos (.int 1)), (S "HTTP_HEADER",
    pos (.str (S "+"))), (S "TLS_VERIFY", pos (.int 1)), (S "TLS_CAINFO", pos (.int 1)),
    (S "NETRC", pos (.int 1) [S "CMAKE_NETRC", S "IGNORED", S "OPTIONAL", S "REQUIRED"]),
    (S "NETRC_FILE", pos (.int 1)), (S "GIT_REPOSITORY", pos (.int 1)), (S "GIT_TAG",
    pos (.int 1)), (S "GIT_REMOTE_NAME", pos (.int 1)), (S "GIT_SUBMODULES", pos (.str (S "+"))),
    (S "GIT_SHALLOW", pos (.int 1)), (S "GIT_PROGRESS", pos (.int 1)), (S "GIT_CONFIG",
    pos (.str (S "+"))), (S "SVN_REPOSITORY", pos (.int 1)), (S "SVN_REVISION", pos (.int 1)),
    (S "SVN_USERNAME", pos (.int 1)), (S "SVN_PASSWORD", pos (.int 1)), (S "SVN_TRUST_CERT",
    pos (.int 1)), (S "HG_REPOSITORY", pos (.int 1)), (S "HG_TAG", pos (.int 1)),
    (S "CVS_REPOSITORY", pos (.int 1)), (S "CVS_MODULE", pos (.int 1)), (S "CVS_TAG",
    pos (.int 1)), (S "UPDATE_COMMAND", .shell), (S "UPDATE_DISCONNECTED", pos (.int 1)),
    (S "PATCH_COMMAND", .shell), (S "CONFIGURE_COMMAND", .shell), (S "CMAKE_COMMAND",
    pos (.int 1)), (S "CMAKE_GENERATOR", pos (.int 1)), (S "CMAKE_GENERATOR_PLATFORM",
    pos (.int 1)), (S "CMAKE_GENERATOR_TOOLSET", pos (.int 1)), (S "CMAKE_GENERATOR_INSTANCE",
    pos (.int 1)), (S "CMAKE_ARGS", pos (.str (S "+"))), (S "CMAKE_CACHE_ARGS",
    pos (.str (S "+"))), (S "CMAKE_CACHE_DEFAULT_ARGS", pos (.str (S "+"))), (S "SOURCE_SUBDIR",
    pos (.int 1)), (S "BUILD_COMMAND", .shell), (S "BUILD_IN_SOURCE", pos (.int 1)),
    (S "BUILD_ALWAYS", pos (.int 1)), (S "BUILD_BYPRODUCTS", pos (.str (S "+"))),
    (S "INSTALL_COMMAND", .shell), (S "TEST_COMMAND", .shell), (S "TEST_BEFORE_INSTALL",
    pos (.int 1)), (S "TEST_AFTER_INSTALL", pos (.int 1)), (S "TEST_EXCLUDE_FROM_MAIN",
    pos (.int 1)), (S "LOG_DOWNLOAD", pos (.int 1)), (S "LOG_UPDATE", pos (.int 1)),
    (S "LOG_PATCH", pos (.int 1)), (S "LOG_CONFIGURE", pos (.int 1)), (S "LOG_BUILD",
    pos (.int 1)), (S "LOG_INSTALL", pos (.int 1)), (S "LOG_TEST", pos (.int 1)),
    (S "LOG_MERGED_STDOUTERR", pos (.int 1)), (S "LOG_OUTPUT_ON_FAILURE", pos (.int 1)),
    (S "USES_TERMINAL_DOWNLOAD", pos (.int 1)), (S "USES_TERMINAL_UPDATE", pos (.int 1)),
    (S "USES_TERMINAL_CONFIGURE", pos (.int 1)), (S "USES_TERMINAL_BUILD", pos (.int 1)),
    (S "USES_TERMINAL_INSTALL", pos (.int 1)), (S "USES_TERMINAL_TEST", pos (.int 1)),
    (S "DEPENDS", pos (.str (S "+"))), (S "EXCLUDE_FROM_ALL", pos (.int 1)), (S "STEP_TARGETS",
    pos (.str (S "+"))), (S "INDEPENDENT_STEP_TARGETS", pos (.str (S "+"))), (S "LIST_SEPARATOR",
    pos (.int 1)), (S "COMMAND", .shell)]

/-- `parse_external_project_add_step`, funs/external_project.py:122-147. -/
def externalProjectAddStep : ArgP :=
  std (.int 2) [(S "COMMAND", .shell), (S "COMMENT", pos (.str (S "+"))), (S "DEPENDEES",
    pos (.str (S "+"))), (S "DEPENDERS", pos (.str (S "+"))), (S "DEPENDS", pos (.str (S "+"))),
    (S "BYPRODUCTS", pos (.str (S "+"))), (S "ALWAYS", pos (.int 1)), (S "EXCLUDE_FROM_MAIN",
    pos (.int 1)), (S "WORKING_DIRECTORY", pos (.int 1)), (S "LOG", pos (.int 1)),
    (S "USES_TERMINAL", pos (.int 1))]

/-- `parse_fetchcontent_declare`, funs/fetch_content.py:6-62. -/
def fetchcontentDeclare : ArgP :=
  std (.int 1) [(S "DOWNLOAD_COMMAND", .shell), (S "URL", pos (.str (S "+"))), (S "URL_HASH",
    pos (.int 1)), (S "URL_MD5", pos (.int 1)), (S "DOWNLOAD_NAME", pos (.int 1)),
    (S "DOWNLOAD_NO_EXTRACT", pos (.int 1)), (S "DOWNLOAD_NO_PROGRESS", pos (.int 1)),
    (S "TIMEOUT", pos (.int 1)), (S "HTTP_USERNAME", pos (.int 1)), (S "HTTP_PASSWORD",
    pos (.int 1)), (S "HTTP_HEADER", pos (.str (S "+"))), (S "TLS_VERIFY", pos (.int 1)),
    (S "TLS_CAINFO", pos (.int 1)), (S "NETRC", pos (.int 1) [S "CMAKE_NETRC", S "IGNORED",
    S "OPTIONAL", S "REQUIRED"]), (S "NETRC_FILE", pos (.int 1)), (S "GIT_REPOSITORY",
    pos (.int 1)), (S "GIT_TAG", pos (.int 1)), (S "GIT_REMOTE_NAME", pos (.int 1)),
    (S "GIT_SUBMODULES", pos (.str (S "+"))), (S "GIT_SHALLOW", pos (.int 1)), (S "GIT_PROGRESS",
    pos (.int 1)), (S "GIT_CONFIG", pos (.str (S "+"))), (S "SVN_REPOSITORY", pos (.int 1)),
    (S "SVN_REVISION", pos (.int 1)), (S "SVN_USERNAME", pos (.int 1)), (S "SVN_PASSWORD",
    pos (.int 1)), (S "SVN_TRUST_CERT", pos (.int 1)), (S "HG_REPOSITORY", pos (.int 1)),
    (S "HG_TAG", pos (.int 1)), (S "CVS_REPOSITORY", pos (.int 1)), (S "CVS_MODULE",
    pos (.int 1)), (S "CVS_TAG", pos (.int 1)), (S "UPDATE_COMMAND", .shell),
    (S "UPDATE_DISCONNECTED", pos (.int 1)), (S "PATCH_COMMAND", .shell)]

/-- `parse_fetchcontent_populate`, funs/fetch_content.py:65-132. -/
def fetchcontentPopulate : ArgP :=
  std (.int 1) [(S "SUBBUILD_DIR", pos (.int 1)), (S "SOURCE_DIR", pos (.int 1)), (S "BINARY_DIR",
    pos (.int 1)), (S "DOWNLOAD_COMMAND", .shell), (S "URL", pos (.str (S "+"))), (S "URL_HASH",
    pos (.int 1)), (S "URL_MD5", pos (.int 1)), (S "DOWNLOAD_NAME", pos (.int 1)),
    (S "DOWNLOAD_NO_EXTRACT", pos (.int 1)), (S "DOWNLOAD_NO_PROGRESS", pos (.int 1)),
    (S "TIMEOUT", pos (.int 1)), (S "HTTP_USERNAME", pos (.int 1)), (S "HTTP_PASSWORD",
    pos (.int 1)), (S "HTTP_HEADER", pos (.str (S "+"))), (S "TLS_VERIFY", pos (.int 1)),
    (S "TLS_CAINFO", pos (.int 1)), (S "NETRC", pos (.int 1) [S "CMAKE_NETRC", S "IGNORED",
    S "OPTIONAL", S "REQUIRED"]), (S "NETRC_FILE", pos (.int 1)), (S "GIT_REPOSITORY",
    pos (.int 1)), (S "GIT_TAG", pos (.int 1)), (S "GIT_REMOTE_NAME", pos (.int 1)),
    (S "GIT_SUBMODULES", pos (.str (S "+"))), (S "GIT_SHALLOW", pos (.int 1)), (S "GIT_PROGRESS",
    pos (.int 1)), (S "GIT_CONFIG", pos (.str (S "+"))), (S "SVN_REPOSITORY", pos (.int 1)),
    (S "SVN_REVISION", pos (.int 1)), (S "SVN_USERNAME", pos (.int 1)), (S "SVN_PASSWORD",
    pos (.int 1)), (S "SVN_TRUST_CERT", pos (.int 1)), (S "HG_REPOSITORY", pos (.int 1)),
    (S "HG_TAG", pos (.int 1)), (S "CVS_REPOSITORY", pos (.int 1)), (S "CVS_MODULE",
    pos (.int 1)), (S "CVS_TAG", pos (.int 1)), (S "UPDATE_COMMAND", .shell),
    (S "UPDATE_DISCONNECTED", pos (.int 1)), (S "PATCH_COMMAND", .shell)] [S "QUIET"]

/-- `parse_fetchcontent_getproperties`, funs/fetch_content.py:135-154. -/
def fetchcontentGetproperties : ArgP :=
  std (.int 1) [(S "SOURCE_DIR", pos (.int 1)), (S "BINARY_DIR", pos (.int 1)), (S "POPULATED",
    pos (.int 1))]

/-- `parse_foreach_range`, funs/foreach.py:55-70. -/
def foreachRange : ArgP :=
  std (.int 1) [(S "RANGE", pos (.int 3))]

/-- `parse_file_read`, funs/file.py:18-39. -/
def fileRead : ArgP :=
  std (.str (S "*")) [(S "OFFSET", pos (.int 1)), (S "LIMIT", pos (.int 1))] [S "READ", S "HEX"]

/-- `parse_file_strings`, funs/file.py:42-71. -/
def fileStrings : ArgP :=
  std (.str (S "*")) [(S "LENGTH_MAXIMUM", pos (.int 1)), (S "LENGTH_MINIMUM", pos (.int 1)),
    (S "LIMIT_COUNT", pos (.int 1)), (S "LIMIT_INPUT", pos (.int 1)), (S "LIMIT_OUTPUT",
    pos (.int 1)), (S "REGEX", pos (.int 1)), (S "ENCODING", pos (.int 1) [S "UTF-8",
    S "UTF-16LE", S "UTF-16BE", S "UTF-32LE", S "UTF-32BE"])] [S "STRINGS", S "NEWLINE_CONSUME",
    S "NO_HEX_CONVERSION"]

/-- `parse_file_hash`, funs/file.py:88-102. -/
def fileHash : ArgP :=
  std (.int 3) [] [S "MD5", S "SHA1", S "SHA224", S "SHA256", S "SHA384", S "SHA512",
    S "SHA3_224", S "SHA3_256", S "SHA3_384", S "SHA3_512"]

/-- `parse_file_timestamp`, funs/file.py:105-119. -/
def fileTimestamp : ArgP :=
  std (.str (S "+")) [] [S "TIMESTAMP", S "UTC"]

/-- `parse_file_generate_output`, funs/file.py:143-164. -/
def fileGenerateOutput : ArgP :=
  std (.int 1) [(S "OUTPUT", pos (.int 1)), (S "INPUT", pos (.int 1)), (S "CONTENT",
    pos (.str (S "+"))), (S "CONDITION", .conditional)] [S "GENERATE"]

/-- `parse_file_glob`, funs/file.py:167-192. -/
def fileGlob : ArgP :=
  std (.str (S "+")) [(S "LIST_DIRECTORIES", pos (.int 1)), (S "RELATIVE",
    pos (.int 1))] [S "GLOB", S "GLOB_RECURSE", S "CONFIGURE_DEPENDS", S "FOLLOW_SYMLINKS"]

/-- `parse_file_copy`, funs/file.py:195-233. -/
def fileCopy : ArgP :=
  std (.str (S "*")) [(S "COPY", pos (.str (S "*"))), (S "DESTINATION", pos (.int 1)),
    (S "FILE_PERMISSIONS", pos (.str (S "+")) [S "OWNER_READ", S "OWNER_WRITE", S "OWNER_EXECUTE",
    S "GROUP_READ", S "GROUP_WRITE", S "GROUP_EXECUTE", S "WORLD_READ", S "WORLD_WRITE",
    S "WORLD_EXECUTE", S "SETUID", S "SETGID"]), (S "DIRECTORY_PERMISSIONS", pos (.str (S "+"))),
    (S "PATTERN", pattern), (S "REGEX", pattern)] [S "INSTALL", S "NO_SOURCE_PERMISSIONS",
    S "USE_SOURCE_PERMISSIONS", S "FILES_MATCHING"]

/-- `parse_file_create_link`, funs/file.py:236-256. -/
def fileCreateLink : ArgP :=
  std (.str (S "+")) [(S "RESULT", pos (.int 1))] [S "COPY_ON_ERROR", S "SYMBOLIC"]

/-- `parse_file_xfer`, funs/file.py:259-293. -/
def fileXfer : ArgP :=
  std (.int 3) [(S "INACTIVITY_TIMEOUT", pos (.int 1)), (S "LOG", pos (.int 1)), (S "STATUS",
    pos (.int 1)), (S "TIMEOUT", pos (.int 1)), (S "USERPWD", pos (.int 1)), (S "HTTPHEADER",
    pos (.int 1)), (S "NETRC", pos (.int 1) [S "CMAKE_NETRC", S "IGNORED", S "OPTIONAL",
    S "REQUIRED"]), (S "NETRC_FILE", pos (.int 1)), (S "EXPECTED_HASH", pos (.int 1)),
    (S "EXPECTED_MD5", pos (.int 1)), (S "TLS_VERIFY", pos (.int 1)), (S "TLS_CAINFO",
    pos (.int 1))] [S "DOWNLOAD", S "UPLOAD", S "SHOW_PROGRESS"]

/-- `parse_file_lock`, funs/file.py:296-321. -/
def fileLock : ArgP :=
  std (.str (S "+")) [(S "GUARD", pos (.int 1) [S "FUNCTION", S "FILE", S "PROCESS"]),
    (S "RESULT_VARIABLE", pos (.int 1)), (S "TIMEOUT", pos (.int 1))] [S "LOCK", S "DIRECTORY",
    S "RELEASE"]

/-- `parse_install_targets_sub`, funs/install.py:18-40. -/
def installTargetsSub : ArgP :=
  std (.str (S "*")) [(S "DESTINATION", pos (.int 1)), (S "PERMISSIONS", pos (.str (S "+"))),
    (S "CONFIGURATIONS", pos (.str (S "+"))), (S "COMPONENT", pos (.int 1)),
    (S "NAMELINK_COMPONENT", pos (.int 1))] [S "OPTIONAL", S "EXCLUDE_FROM_ALL",
    S "NAMELINK_ONLY", S "NAMELINK_SKIP"]

/-- `parse_install_files`, funs/install.py:155-184. -/
def installFiles : ArgP :=
  std (.str (S "*")) [(S "FILES", pos (.str (S "+"))), (S "PROGRAMS", pos (.str (S "+"))),
    (S "TYPE", pos (.int 1)), (S "DESTINATION", pos (.int 1)), (S "PERMISSIONS",
    pos (.str (S "+"))), (S "CONFIGURATIONS", pos (.str (S "+"))), (S "COMPONENT", pos (.int 1)),
    (S "RENAME", pos (.int 1))] [S "OPTIONAL", S "EXCLUDE_FROM_ALL"]

/-- `parse_install_directory`, funs/install.py:187-225. -/
def installDirectory : ArgP :=
  std (.str (S "*")) [(S "DIRECTORY", pos (.str (S "+"))), (S "TYPE", pos (.int 1)),
    (S "DESTINATION", pos (.int 1)), (S "FILE_PERMISSIONS", pos (.str (S "+"))),
    (S "DIRECTORY_PERMISSIONS", pos (.str (S "+"))), (S "CONFIGURATIONS", pos (.str (S "+"))),
    (S "COMPONENT", pos (.int 1)), (S "RENAME", pos (.int 1)), (S "PATTERN", pattern), (S "REGEX",
    pattern)] [S "USER_SOURCE_PERMISSIONS", S "OPTIONAL", S "MESSAGE_NEVER", S "FILES_MATCHING"]

/-- `parse_install_script`, funs/install.py:228-248. -/
def installScript : ArgP :=
  std (.str (S "*")) [(S "SCRIPT", pos (.int 1)), (S "CODE", pos (.int 1)), (S "COMPONENT",
    pos (.int 1))] [S "EXCLUDE_FROM_ALL"]

/-- `parse_install_export`, funs/install.py:251-280. -/
def installExport : ArgP :=
  std (.str (S "*")) [(S "EXPORT", pos (.int 1)), (S "DESTINATION", pos (.int 1)), (S "NAMESPACE",
    pos (.int 1)), (S "FILE", pos (.int 1)), (S "PERMISSIONS", pos (.str (S "+"))),
    (S "CONFIGURATIONS", pos (.str (S "+"))), (S "COMPONENT",
    pos (.int 1))] [S "EXCLUDE_FROM_ALL"]

/-- `parse_create_test_sourcelist`, funs/miscellaneous.py:104-121. -/
def createTestSourcelist : ArgP :=
  std (.str (S "3+")) [(S "EXTRA_INCLUDE", pos (.int 1)), (S "FUNCTION", pos (.int 1))]

/-- `parse_export_library_dependencies`, funs/miscellaneous.py:124-133. -/
def exportLibraryDependencies : ArgP :=
  std (.str (S "1+")) [] [S "APPEND"]

/-- `parse_fltk_wrap_ui`, funs/miscellaneous.py:136-146. -/
def fltkWrapUi : ArgP :=
  std (.str (S "2+"))

/-- `parse_get_cmake_property`, funs/miscellaneous.py:149-157. -/
def getCmakeProperty : ArgP :=
  std (.int 2)

/-- `parse_get_source_file_property`, funs/miscellaneous.py:189-197. -/
def getSourceFileProperty : ArgP :=
  std (.int 3)

/-- `parse_get_target_property`, funs/miscellaneous.py:200-208. -/
def getTargetProperty : ArgP :=
  std (.int 3)

/-- `parse_get_test_property`, funs/miscellaneous.py:211-219. -/
def getTestProperty : ArgP :=
  std (.int 3)

/-- `parse_include_external_msproject`, funs/miscellaneous.py:222-239. -/
def includeExternalMsproject : ArgP :=
  std (.str (S "2+")) [(S "TYPE", pos (.int 1)), (S "GUID", pos (.int 1)), (S "PLATFORM",
    pos (.int 1))]

/-- `parse_include_guard`, funs/miscellaneous.py:242-250. -/
def includeGuard : ArgP :=
  std (.str (S "*"))

/-- `parse_include_regular_expression`, funs/miscellaneous.py:253-261. -/
def includeRegularExpression : ArgP :=
  std (.str (S "*"))

/-- `parse_link_directories`, funs/miscellaneous.py:264-273. -/
def linkDirectories : ArgP :=
  std (.str (S "+")) [] [S "AFTER", S "BEFORE"]

/-- `parse_link_libraries`, funs/miscellaneous.py:276-286. -/
def linkLibraries : ArgP :=
  std (.str (S "+")) [] [S "DEBUG", S "OPTIMIZED", S "GENERAL"]

/-- `parse_load_cache`, funs/miscellaneous.py:289-304. -/
def loadCache : ArgP :=
  std (.int 1) [(S "READ_WITH_PREFIX", pos (.str (S "2+"))), (S "EXCLUDE", pos (.str (S "+"))),
    (S "INCLUDE_INTERNALS", pos (.str (S "+")))]

/-- `parse_load_command`, funs/miscellaneous.py:307-316. -/
def loadCommand : ArgP :=
  std (.str (S "2+")) [] [S "COMMAND_NAME"]

/-- `parse_math`, funs/miscellaneous.py:319-330. -/
def math : ArgP :=
  std (.str (S "3")) [(S "OUTPUT_FORMAT", pos (.int 1))]

/-- `parse_option`, funs/miscellaneous.py:333-341. -/
def option : ArgP :=
  std (.str (S "2+"))

/-- `parse_output_required_files`, funs/miscellaneous.py:344-352. -/
def outputRequiredFiles : ArgP :=
  std (.int 2)

/-- `parse_qt_wrap_cpp`, funs/miscellaneous.py:355-363. -/
def qtWrapCpp : ArgP :=
  std (.str (S "3+"))

/-- `parse_qt_wrap_ui`, funs/miscellaneous.py:366-375. -/
def qtWrapUi : ArgP :=
  std (.str (S "4+"))

/-- `parse_remove_definitions`, funs/miscellaneous.py:378-386. -/
def removeDefinitions : ArgP :=
  std (.str (S "+"))

/-- `parse_separate_arguments`, funs/miscellaneous.py:389-398. -/
def separateArguments : ArgP :=
  std (.int 3) [] [S "UNIX_COMMAND", S "WINDOWS_COMMAND", S "NATIVE_COMMAND"]

/-- `parse_set_source_files_properties`, funs/miscellaneous.py:401-414. -/
def setSourceFilesProperties : ArgP :=
  std (.str (S "+")) [(S "PROPERTIES", .tuple (.str (S "+")) 2 [])]

/-- `parse_site_name`, funs/miscellaneous.py:417-425. -/
def siteName : ArgP :=
  std (.int 1)

/-- `parse_ctest_build`, funs/random.py:10-38. -/
def ctestBuild : ArgP :=
  std (.str (S "+")) [(S "BUILD", pos (.int 1)), (S "CONFIGURATION", pos (.int 1)), (S "FLAGS",
    pos (.int 1)), (S "PROJECT_NAME", pos (.int 1)), (S "TARGET", pos (.int 1)),
    (S "NUMBER_ERRORS", pos (.int 1)), (S "NUMBER_WARNINGS", pos (.int 1)), (S "RETURN_VALUE",
    pos (.int 1)), (S "CAPTURE_CMAKE_ERROR", pos (.int 1))] [S "APPEND"]

/-- `parse_ctest_configure`, funs/random.py:41-59. -/
def ctestConfigure : ArgP :=
  std (.str (S "+")) [(S "BUILD", pos (.int 1)), (S "SOURCE", pos (.int 1)), (S "OPTIONS",
    pos (.int 1)), (S "RETURN_VALUE", pos (.int 1)), (S "CAPTURE_CMAKE_ERROR",
    pos (.int 1))] [S "APPEND", S "QUIET"]

/-- `parse_ctest_coverage`, funs/random.py:62-82. -/
def ctestCoverage : ArgP :=
  std (.str (S "+")) [(S "BUILD", pos (.int 1)), (S "LABELS", pos (.str (S "+"))),
    (S "RETURN_VALUE", pos (.int 1)), (S "CAPTURE_CMAKE_ERROR", pos (.int 1))] [S "APPEND",
    S "QUIET"]

/-- `parse_ctest_empty_binary_directory`, funs/random.py:85-93. -/
def ctestEmptyBinaryDirectory : ArgP :=
  std (.int 1)

/-- `parse_ctest_memcheck`, funs/random.py:96-142. -/
def ctestMemcheck : ArgP :=
  std (.int 0) [(S "BUILD", pos (.int 1)), (S "START", pos (.int 1)), (S "END", pos (.int 1)),
    (S "STRIDE", pos (.int 1)), (S "EXCLUDE", pos (.int 1)), (S "INCLUDE", pos (.int 1)),
    (S "EXCLUDE_LABEL", pos (.int 1)), (S "INCLUDE_LABEL", pos (.int 1)), (S "EXCLUDE_FIXTURE",
    pos (.int 1)), (S "EXCLUDE_FIXTURE_SETUP", pos (.int 1)), (S "EXCLUDE_FIXTURE_CLEANUP",
    pos (.int 1)), (S "PARALLEL_LEVEL", pos (.int 1)), (S "TEST_LOAD", pos (.int 1)),
    (S "SCHEDULE_RANDOM", pos (.int 1) [S "ON", S "OFF"]), (S "STOP_TIME", pos (.int 1)),
    (S "RETURN_VALUE", pos (.int 1)), (S "DEFECT_COUNT", pos (.int 1))] [S "APPEND", S "QUIET"]

/-- `parse_ctest_read_custom_files`, funs/random.py:145-153. -/
def ctestReadCustomFiles : ArgP :=
  std (.str (S "+"))

/-- `parse_ctest_run_script`, funs/random.py:156-167. -/
def ctestRunScript : ArgP :=
  std (.str (S "+")) [(S "RETURN_VALUE", pos (.int 1))] [S "NEW_PROCESS"]

/-- `parse_ctest_start`, funs/random.py:185-198. -/
def ctestStart : ArgP :=
  std (.str (S "+")) [(S "GROUP", pos (.int 1))] [S "QUIET", S "APPEND"]

/-- `parse_ctest_submit`, funs/random.py:201-230. -/
def ctestSubmit : ArgP :=
  std (.str (S "+")) [(S "PARTS", pos (.str (S "+"))), (S "FILES", pos (.str (S "+"))),
    (S "SUBMIT_URL", pos (.int 1)), (S "BUILD_ID", pos (.int 1)), (S "HTTPHEADER", pos (.int 1)),
    (S "RETRY_COUNT", pos (.int 1)), (S "RETRY_DELAY", pos (.int 1)), (S "RETURN_VALUE",
    pos (.int 1)), (S "CAPTURE_CMAKE_ERROR", pos (.int 1))] [S "QUIET"]

/-- `parse_ctest_test`, funs/random.py:233-281. -/
def ctestTest : ArgP :=
  std (.str (S "+")) [(S "BUILD", pos (.int 1)), (S "START", pos (.int 1)), (S "END",
    pos (.int 1)), (S "STRIDE", pos (.int 1)), (S "EXCLUDE", pos (.int 1)), (S "INCLUDE",
    pos (.int 1)), (S "EXCLUDE_LABEL", pos (.int 1)), (S "INCLUDE_LABEL", pos (.int 1)),
    (S "EXCLUDE_FIXTURE", pos (.int 1)), (S "EXCLUDE_FIXTURE_SETUP", pos (.int 1)),
    (S "EXCLUDE_FIXTURE_CLEANUP", pos (.int 1)), (S "PARALLEL_LEVEL", pos (.int 1)),
    (S "RESOURCE_SPEC_FILE", pos (.int 1)), (S "TEST_LOAD", pos (.int 1)), (S "SCHEDULE_RANDOM",
    pos (.int 1) [S "ON", S "OFF"]), (S "STOP_TIME", pos (.int 1)), (S "RETURN_VALUE",
    pos (.int 1)), (S "CAPTURE_CMAKE_ERROR", pos (.int 1))] [S "APPEND", S "QUIET"]

/-- `parse_ctest_update`, funs/random.py:284-301. -/
def ctestUpdate : ArgP :=
  std (.str (S "+")) [(S "SOURCE", pos (.int 1)), (S "RETURN_VALUE", pos (.int 1)),
    (S "CAPTURE_CMAKE_ERROR", pos (.int 1))] [S "QUIET"]

/-- `parse_ctest_upload`, funs/random.py:304-317. -/
def ctestUpload : ArgP :=
  std (.str (S "+")) [(S "FILES", pos (.str (S "+"))), (S "CAPTURE_CMAKE_ERROR",
    pos (.int 1))] [S "QUIET"]

/-- `parse_target_compile_definitions`, funs/random.py:320-335. -/
def targetCompileDefinitions : ArgP :=
  std (.int 1) [(S "INTERFACE", pos (.str (S "+"))), (S "PUBLIC", pos (.str (S "+"))),
    (S "PRIVATE", pos (.str (S "+")))]

/-- `parse_target_compile_features`, funs/random.py:338-351. -/
def targetCompileFeatures : ArgP :=
  std (.int 1) [(S "INTERFACE", pos (.str (S "+"))), (S "PUBLIC", pos (.str (S "+"))),
    (S "PRIVATE", pos (.str (S "+")))]

/-- `parse_target_sources`, funs/random.py:354-369. -/
def targetSources : ArgP :=
  std (.int 1) [(S "INTERFACE", pos (.str (S "+"))), (S "PUBLIC", pos (.str (S "+"))),
    (S "PRIVATE", pos (.str (S "+")))]

/-- `parse_unset`, funs/random.py:372-382. -/
def unset : ArgP :=
  std (.str (S "+")) [] [S "CACHE", S "PARENT_SCOPE"]

/-- `parse_variable_watch`, funs/random.py:385-393. -/
def variableWatch : ArgP :=
  std (.str (S "+"))

/-- `parse_add_compile_definitions`, funs/random.py:396-404. -/
def addCompileDefinitions : ArgP :=
  std (.str (S "+"))

/-- `parse_set_target_properties`, funs/set_target_properties.py:5-20. -/
def setTargetProperties : ArgP :=
  std (.str (S "+")) [(S "PROPERTIES", .tuple (.str (S "+")) 2 [])]

end Verif.Parse.Funs
