import Verif.SpecTables

/-!
# The names of built-in variables

Generated from cmakelang/parse/variables.py:10-485, one entry per pattern, in order: the text before
`(.*)` and the text after it, or the whole text and nothing.  No pattern has more than one group,
and no other character is special in a regular expression.
-/

namespace Verif.Lint
open Verif

/-- `PATTERNS`, parse/variables.py:11-50. -/
def patterns1 : List (Str × Option Str) :=
  [(c! "", some (c! "_BINARY_DIR")),
   (c! "", some (c! "_SOURCE_DIR")),
   (c! "", some (c! "_VERSION")),
   (c! "", some (c! "_VERSION_MAJOR")),
   (c! "", some (c! "_VERSION_MINOR")),
   (c! "", some (c! "_VERSION_PATCH")),
   (c! "", some (c! "_VERSION_TWEAK")),
   (c! "ANDROID", none),
   (c! "APPLE", none),
   (c! "BORLAND", none),
   (c! "BUILD_SHARED_LIBS", none),
   (c! "CMAKE_", some (c! "_POSTFIX")),
   (c! "CMAKE_", some (c! "_ANDROID_TOOLCHAIN_MACHINE")),
   (c! "CMAKE_", some (c! "_ANDROID_TOOLCHAIN_PREFIX")),
   (c! "CMAKE_", some (c! "_ANDROID_TOOLCHAIN_SUFFIX")),
   (c! "CMAKE_", some (c! "_ARCHIVE_APPEND")),
   (c! "CMAKE_", some (c! "_ARCHIVE_CREATE")),
   (c! "CMAKE_", some (c! "_ARCHIVE_FINISH")),
   (c! "CMAKE_", some (c! "_CLANG_TIDY")),
   (c! "CMAKE_", some (c! "_COMPILER")),
   (c! "CMAKE_", some (c! "_COMPILER_ABI")),
   (c! "CMAKE_", some (c! "_COMPILER_AR")),
   (c! "CMAKE_", some (c! "_COMPILER_ARCHITECTURE_ID")),
   (c! "CMAKE_", some (c! "_COMPILER_EXTERNAL_TOOLCHAIN")),
   (c! "CMAKE_", some (c! "_COMPILER_ID")),
   (c! "CMAKE_", some (c! "_COMPILER_LAUNCHER")),
   (c! "CMAKE_", some (c! "_COMPILER_LOADED")),
   (c! "CMAKE_", some (c! "_COMPILER_PREDEFINES_COMMAND")),
   (c! "CMAKE_", some (c! "_COMPILER_RANLIB")),
   (c! "CMAKE_", some (c! "_COMPILER_TARGET")),
   (c! "CMAKE_", some (c! "_COMPILER_VERSION")),
   (c! "CMAKE_", some (c! "_COMPILER_VERSION_INTERNAL")),
   (c! "CMAKE_", some (c! "_COMPILE_OBJECT")),
   (c! "CMAKE_", some (c! "_CPPCHECK")),
   (c! "CMAKE_", some (c! "_CPPLINT")),
   (c! "CMAKE_", some (c! "_CREATE_SHARED_LIBRARY")),
   (c! "CMAKE_", some (c! "_CREATE_SHARED_MODULE")),
   (c! "CMAKE_", some (c! "_CREATE_STATIC_LIBRARY")),
   (c! "CMAKE_", some (c! "_FLAGS")),
   (c! "CMAKE_", some (c! "_FLAGS_DEBUG"))]

/-- `PATTERNS`, parse/variables.py:51-90. -/
def patterns2 : List (Str × Option Str) :=
  [(c! "CMAKE_", some (c! "_FLAGS_DEBUG_INIT")),
   (c! "CMAKE_", some (c! "_FLAGS_INIT")),
   (c! "CMAKE_", some (c! "_FLAGS_MINSIZEREL")),
   (c! "CMAKE_", some (c! "_FLAGS_MINSIZEREL_INIT")),
   (c! "CMAKE_", some (c! "_FLAGS_RELEASE")),
   (c! "CMAKE_", some (c! "_FLAGS_RELEASE_INIT")),
   (c! "CMAKE_", some (c! "_FLAGS_RELWITHDEBINFO")),
   (c! "CMAKE_", some (c! "_FLAGS_RELWITHDEBINFO_INIT")),
   (c! "CMAKE_", some (c! "_GHS_KERNEL_FLAGS_DEBUG")),
   (c! "CMAKE_", some (c! "_GHS_KERNEL_FLAGS_MINSIZEREL")),
   (c! "CMAKE_", some (c! "_GHS_KERNEL_FLAGS_RELEASE")),
   (c! "CMAKE_", some (c! "_GHS_KERNEL_FLAGS_RELWITHDEBINFO")),
   (c! "CMAKE_", some (c! "_IGNORE_EXTENSIONS")),
   (c! "CMAKE_", some (c! "_IMPLICIT_INCLUDE_DIRECTORIES")),
   (c! "CMAKE_", some (c! "_IMPLICIT_LINK_DIRECTORIES")),
   (c! "CMAKE_", some (c! "_IMPLICIT_LINK_FRAMEWORK_DIRECTORIES")),
   (c! "CMAKE_", some (c! "_IMPLICIT_LINK_LIBRARIES")),
   (c! "CMAKE_", some (c! "_INCLUDE_WHAT_YOU_USE")),
   (c! "CMAKE_", some (c! "_LIBRARY_ARCHITECTURE")),
   (c! "CMAKE_", some (c! "_LINKER_PREFERENCE")),
   (c! "CMAKE_", some (c! "_LINKER_PREFERENCE_PROPAGATES")),
   (c! "CMAKE_", some (c! "_LINK_EXECUTABLE")),
   (c! "CMAKE_", some (c! "_OUTPUT_EXTENSION")),
   (c! "CMAKE_", some (c! "_PLATFORM_ID")),
   (c! "CMAKE_", some (c! "_SIMULATE_ID")),
   (c! "CMAKE_", some (c! "_SIMULATE_VERSION")),
   (c! "CMAKE_", some (c! "_SIZEOF_DATA_PTR")),
   (c! "CMAKE_", some (c! "_SOURCE_FILE_EXTENSIONS")),
   (c! "CMAKE_", some (c! "_STANDARD_INCLUDE_DIRECTORIES")),
   (c! "CMAKE_", some (c! "_STANDARD_LIBRARIES")),
   (c! "CMAKE_", some (c! "_VISIBILITY_PRESET")),
   (c! "CMAKE_ABSOLUTE_DESTINATION_FILES", none),
   (c! "CMAKE_ANDROID_ANT_ADDITIONAL_OPTIONS", none),
   (c! "CMAKE_ANDROID_API", none),
   (c! "CMAKE_ANDROID_API_MIN", none),
   (c! "CMAKE_ANDROID_ARCH", none),
   (c! "CMAKE_ANDROID_ARCH_ABI", none),
   (c! "CMAKE_ANDROID_ARM_MODE", none),
   (c! "CMAKE_ANDROID_ARM_NEON", none),
   (c! "CMAKE_ANDROID_ASSETS_DIRECTORIES", none)]

/-- `PATTERNS`, parse/variables.py:91-130. -/
def patterns3 : List (Str × Option Str) :=
  [(c! "CMAKE_ANDROID_GUI", none),
   (c! "CMAKE_ANDROID_JAR_DEPENDENCIES", none),
   (c! "CMAKE_ANDROID_JAR_DIRECTORIES", none),
   (c! "CMAKE_ANDROID_JAVA_SOURCE_DIR", none),
   (c! "CMAKE_ANDROID_NATIVE_LIB_DEPENDENCIES", none),
   (c! "CMAKE_ANDROID_NATIVE_LIB_DIRECTORIES", none),
   (c! "CMAKE_ANDROID_NDK", none),
   (c! "CMAKE_ANDROID_NDK_DEPRECATED_HEADERS", none),
   (c! "CMAKE_ANDROID_NDK_TOOLCHAIN_HOST_TAG", none),
   (c! "CMAKE_ANDROID_NDK_TOOLCHAIN_VERSION", none),
   (c! "CMAKE_ANDROID_PROCESS_MAX", none),
   (c! "CMAKE_ANDROID_PROGUARD", none),
   (c! "CMAKE_ANDROID_PROGUARD_CONFIG_PATH", none),
   (c! "CMAKE_ANDROID_SECURE_PROPS_PATH", none),
   (c! "CMAKE_ANDROID_SKIP_ANT_STEP", none),
   (c! "CMAKE_ANDROID_STANDALONE_TOOLCHAIN", none),
   (c! "CMAKE_ANDROID_STL_TYPE", none),
   (c! "CMAKE_APPBUNDLE_PATH", none),
   (c! "CMAKE_AR", none),
   (c! "CMAKE_ARCHIVE_OUTPUT_DIRECTORY", none),
   (c! "CMAKE_ARCHIVE_OUTPUT_DIRECTORY_", some (c! "")),
   (c! "CMAKE_ARGC", none),
   (c! "CMAKE_ARGV0", none),
   (c! "CMAKE_AUTOMOC", none),
   (c! "CMAKE_AUTOMOC_COMPILER_PREDEFINES", none),
   (c! "CMAKE_AUTOMOC_DEPEND_FILTERS", none),
   (c! "CMAKE_AUTOMOC_MACRO_NAMES", none),
   (c! "CMAKE_AUTOMOC_MOC_OPTIONS", none),
   (c! "CMAKE_AUTOMOC_RELAXED_MODE", none),
   (c! "CMAKE_AUTORCC", none),
   (c! "CMAKE_AUTORCC_OPTIONS", none),
   (c! "CMAKE_AUTOUIC", none),
   (c! "CMAKE_AUTOUIC_OPTIONS", none),
   (c! "CMAKE_AUTOUIC_SEARCH_PATHS", none),
   (c! "CMAKE_BACKWARDS_COMPATIBILITY", none),
   (c! "CMAKE_BINARY_DIR", none),
   (c! "CMAKE_BUILD_RPATH", none),
   (c! "CMAKE_BUILD_TOOL", none),
   (c! "CMAKE_BUILD_TYPE", none),
   (c! "CMAKE_BUILD_WITH_INSTALL_NAME_DIR", none)]

/-- `PATTERNS`, parse/variables.py:131-170. -/
def patterns4 : List (Str × Option Str) :=
  [(c! "CMAKE_BUILD_WITH_INSTALL_RPATH", none),
   (c! "CMAKE_CACHEFILE_DIR", none),
   (c! "CMAKE_CACHE_MAJOR_VERSION", none),
   (c! "CMAKE_CACHE_MINOR_VERSION", none),
   (c! "CMAKE_CACHE_PATCH_VERSION", none),
   (c! "CMAKE_CFG_INTDIR", none),
   (c! "CMAKE_CL_64", none),
   (c! "CMAKE_CODEBLOCKS_EXCLUDE_EXTERNAL_FILES", none),
   (c! "CMAKE_CODELITE_USE_TARGETS", none),
   (c! "CMAKE_COLOR_MAKEFILE", none),
   (c! "CMAKE_COMMAND", none),
   (c! "CMAKE_COMPILER_2005", none),
   (c! "CMAKE_COMPILER_IS_GNUCC", none),
   (c! "CMAKE_COMPILER_IS_GNUCXX", none),
   (c! "CMAKE_COMPILER_IS_GNUG77", none),
   (c! "CMAKE_COMPILE_PDB_OUTPUT_DIRECTORY", none),
   (c! "CMAKE_COMPILE_PDB_OUTPUT_DIRECTORY_", some (c! "")),
   (c! "CMAKE_CONFIGURATION_TYPES", none),
   (c! "CMAKE_CROSSCOMPILING", none),
   (c! "CMAKE_CROSSCOMPILING_EMULATOR", none),
   (c! "CMAKE_CTEST_COMMAND", none),
   (c! "CMAKE_CUDA_EXTENSIONS", none),
   (c! "CMAKE_CUDA_HOST_COMPILER", none),
   (c! "CMAKE_CUDA_STANDARD", none),
   (c! "CMAKE_CUDA_STANDARD_REQUIRED", none),
   (c! "CMAKE_CUDA_TOOLKIT_INCLUDE_DIRECTORIES", none),
   (c! "CMAKE_CURRENT_BINARY_DIR", none),
   (c! "CMAKE_CURRENT_LIST_DIR", none),
   (c! "CMAKE_CURRENT_LIST_FILE", none),
   (c! "CMAKE_CURRENT_LIST_LINE", none),
   (c! "CMAKE_CURRENT_SOURCE_DIR", none),
   (c! "CMAKE_CXX_COMPILE_FEATURES", none),
   (c! "CMAKE_CXX_EXTENSIONS", none),
   (c! "CMAKE_CXX_STANDARD", none),
   (c! "CMAKE_CXX_STANDARD_REQUIRED", none),
   (c! "CMAKE_C_COMPILE_FEATURES", none),
   (c! "CMAKE_C_EXTENSIONS", none),
   (c! "CMAKE_C_STANDARD", none),
   (c! "CMAKE_C_STANDARD_REQUIRED", none),
   (c! "CMAKE_DEBUG_POSTFIX", none)]

/-- `PATTERNS`, parse/variables.py:171-210. -/
def patterns5 : List (Str × Option Str) :=
  [(c! "CMAKE_DEBUG_TARGET_PROPERTIES", none),
   (c! "CMAKE_DEPENDS_IN_PROJECT_ONLY", none),
   (c! "CMAKE_DIRECTORY_LABELS", none),
   (c! "CMAKE_DISABLE_FIND_PACKAGE_", some (c! "")),
   (c! "CMAKE_DL_LIBS", none),
   (c! "CMAKE_ECLIPSE_GENERATE_LINKED_RESOURCES", none),
   (c! "CMAKE_ECLIPSE_GENERATE_SOURCE_PROJECT", none),
   (c! "CMAKE_ECLIPSE_MAKE_ARGUMENTS", none),
   (c! "CMAKE_ECLIPSE_VERSION", none),
   (c! "CMAKE_EDIT_COMMAND", none),
   (c! "CMAKE_ENABLE_EXPORTS", none),
   (c! "CMAKE_ERROR_DEPRECATED", none),
   (c! "CMAKE_ERROR_ON_ABSOLUTE_INSTALL_DESTINATION", none),
   (c! "CMAKE_EXECUTABLE_SUFFIX", none),
   (c! "CMAKE_EXE_LINKER_FLAGS", none),
   (c! "CMAKE_EXE_LINKER_FLAGS_", some (c! "")),
   (c! "CMAKE_EXE_LINKER_FLAGS_", some (c! "_INIT")),
   (c! "CMAKE_EXE_LINKER_FLAGS_INIT", none),
   (c! "CMAKE_EXPORT_COMPILE_COMMANDS", none),
   (c! "CMAKE_EXPORT_NO_PACKAGE_REGISTRY", none),
   (c! "CMAKE_EXTRA_GENERATOR", none),
   (c! "CMAKE_EXTRA_SHARED_LIBRARY_SUFFIXES", none),
   (c! "CMAKE_FIND_APPBUNDLE", none),
   (c! "CMAKE_FIND_FRAMEWORK", none),
   (c! "CMAKE_FIND_LIBRARY_CUSTOM_LIB_SUFFIX", none),
   (c! "CMAKE_FIND_LIBRARY_PREFIXES", none),
   (c! "CMAKE_FIND_LIBRARY_SUFFIXES", none),
   (c! "CMAKE_FIND_NO_INSTALL_PREFIX", none),
   (c! "CMAKE_FIND_PACKAGE_NAME", none),
   (c! "CMAKE_FIND_PACKAGE_NO_PACKAGE_REGISTRY", none),
   (c! "CMAKE_FIND_PACKAGE_NO_SYSTEM_PACKAGE_REGISTRY", none),
   (c! "CMAKE_FIND_PACKAGE_SORT_DIRECTION", none),
   (c! "CMAKE_FIND_PACKAGE_SORT_ORDER", none),
   (c! "CMAKE_FIND_PACKAGE_WARN_NO_MODULE", none),
   (c! "CMAKE_FIND_ROOT_PATH", none),
   (c! "CMAKE_FIND_ROOT_PATH_MODE_INCLUDE", none),
   (c! "CMAKE_FIND_ROOT_PATH_MODE_LIBRARY", none),
   (c! "CMAKE_FIND_ROOT_PATH_MODE_PACKAGE", none),
   (c! "CMAKE_FIND_ROOT_PATH_MODE_PROGRAM", none),
   (c! "CMAKE_FRAMEWORK_PATH", none)]

/-- `PATTERNS`, parse/variables.py:211-250. -/
def patterns6 : List (Str × Option Str) :=
  [(c! "CMAKE_Fortran_FORMAT", none),
   (c! "CMAKE_Fortran_MODDIR_DEFAULT", none),
   (c! "CMAKE_Fortran_MODDIR_FLAG", none),
   (c! "CMAKE_Fortran_MODOUT_FLAG", none),
   (c! "CMAKE_Fortran_MODULE_DIRECTORY", none),
   (c! "CMAKE_GENERATOR", none),
   (c! "CMAKE_GENERATOR_PLATFORM", none),
   (c! "CMAKE_GENERATOR_TOOLSET", none),
   (c! "CMAKE_GNUtoMS", none),
   (c! "CMAKE_HOME_DIRECTORY", none),
   (c! "CMAKE_HOST_APPLE", none),
   (c! "CMAKE_HOST_SOLARIS", none),
   (c! "CMAKE_HOST_SYSTEM", none),
   (c! "CMAKE_HOST_SYSTEM_NAME", none),
   (c! "CMAKE_HOST_SYSTEM_PROCESSOR", none),
   (c! "CMAKE_HOST_SYSTEM_VERSION", none),
   (c! "CMAKE_HOST_UNIX", none),
   (c! "CMAKE_HOST_WIN32", none),
   (c! "CMAKE_IGNORE_PATH", none),
   (c! "CMAKE_IMPORT_LIBRARY_PREFIX", none),
   (c! "CMAKE_IMPORT_LIBRARY_SUFFIX", none),
   (c! "CMAKE_INCLUDE_CURRENT_DIR", none),
   (c! "CMAKE_INCLUDE_CURRENT_DIR_IN_INTERFACE", none),
   (c! "CMAKE_INCLUDE_DIRECTORIES_BEFORE", none),
   (c! "CMAKE_INCLUDE_DIRECTORIES_PROJECT_BEFORE", none),
   (c! "CMAKE_INCLUDE_PATH", none),
   (c! "CMAKE_INSTALL_DEFAULT_COMPONENT_NAME", none),
   (c! "CMAKE_INSTALL_MESSAGE", none),
   (c! "CMAKE_INSTALL_NAME_DIR", none),
   (c! "CMAKE_INSTALL_PREFIX", none),
   (c! "CMAKE_INSTALL_PREFIX_INITIALIZED_TO_DEFAULT", none),
   (c! "CMAKE_INSTALL_RPATH", none),
   (c! "CMAKE_INSTALL_RPATH_USE_LINK_PATH", none),
   (c! "CMAKE_INTERNAL_PLATFORM_ABI", none),
   (c! "CMAKE_INTERPROCEDURAL_OPTIMIZATION", none),
   (c! "CMAKE_INTERPROCEDURAL_OPTIMIZATION_", some (c! "")),
   (c! "CMAKE_IOS_INSTALL_COMBINED", none),
   (c! "CMAKE_JOB_POOL_COMPILE", none),
   (c! "CMAKE_JOB_POOL_LINK", none),
   (c! "CMAKE_LIBRARY_ARCHITECTURE", none)]

/-- `PATTERNS`, parse/variables.py:251-290. -/
def patterns7 : List (Str × Option Str) :=
  [(c! "CMAKE_LIBRARY_ARCHITECTURE_REGEX", none),
   (c! "CMAKE_LIBRARY_OUTPUT_DIRECTORY", none),
   (c! "CMAKE_LIBRARY_OUTPUT_DIRECTORY_", some (c! "")),
   (c! "CMAKE_LIBRARY_PATH", none),
   (c! "CMAKE_LIBRARY_PATH_FLAG", none),
   (c! "CMAKE_LINK_DEF_FILE_FLAG", none),
   (c! "CMAKE_LINK_DEPENDS_NO_SHARED", none),
   (c! "CMAKE_LINK_INTERFACE_LIBRARIES", none),
   (c! "CMAKE_LINK_LIBRARY_FILE_FLAG", none),
   (c! "CMAKE_LINK_LIBRARY_FLAG", none),
   (c! "CMAKE_LINK_LIBRARY_SUFFIX", none),
   (c! "CMAKE_LINK_SEARCH_END_STATIC", none),
   (c! "CMAKE_LINK_SEARCH_START_STATIC", none),
   (c! "CMAKE_LINK_WHAT_YOU_USE", none),
   (c! "CMAKE_MACOSX_BUNDLE", none),
   (c! "CMAKE_MACOSX_RPATH", none),
   (c! "CMAKE_MAJOR_VERSION", none),
   (c! "CMAKE_MAKE_PROGRAM", none),
   (c! "CMAKE_MAP_IMPORTED_CONFIG_", some (c! "")),
   (c! "CMAKE_MATCH_", some (c! "")),
   (c! "CMAKE_MATCH_COUNT", none),
   (c! "CMAKE_MFC_FLAG", none),
   (c! "CMAKE_MINIMUM_REQUIRED_VERSION", none),
   (c! "CMAKE_MINOR_VERSION", none),
   (c! "CMAKE_MODULE_LINKER_FLAGS", none),
   (c! "CMAKE_MODULE_LINKER_FLAGS_", some (c! "")),
   (c! "CMAKE_MODULE_LINKER_FLAGS_", some (c! "_INIT")),
   (c! "CMAKE_MODULE_LINKER_FLAGS_INIT", none),
   (c! "CMAKE_MODULE_PATH", none),
   (c! "CMAKE_MSVCIDE_RUN_PATH", none),
   (c! "CMAKE_NINJA_OUTPUT_PATH_PREFIX", none),
   (c! "CMAKE_NOT_USING_CONFIG_FLAGS", none),
   (c! "CMAKE_NO_BUILTIN_CHRPATH", none),
   (c! "CMAKE_NO_SYSTEM_FROM_IMPORTED", none),
   (c! "CMAKE_OBJECT_PATH_MAX", none),
   (c! "CMAKE_OSX_ARCHITECTURES", none),
   (c! "CMAKE_OSX_DEPLOYMENT_TARGET", none),
   (c! "CMAKE_OSX_SYSROOT", none),
   (c! "CMAKE_PARENT_LIST_FILE", none),
   (c! "CMAKE_PATCH_VERSION", none)]

/-- `PATTERNS`, parse/variables.py:291-330. -/
def patterns8 : List (Str × Option Str) :=
  [(c! "CMAKE_PDB_OUTPUT_DIRECTORY", none),
   (c! "CMAKE_PDB_OUTPUT_DIRECTORY_", some (c! "")),
   (c! "CMAKE_POLICY_DEFAULT_CMP", some (c! "")),
   (c! "CMAKE_POLICY_WARNING_CMP", some (c! "")),
   (c! "CMAKE_POSITION_INDEPENDENT_CODE", none),
   (c! "CMAKE_PREFIX_PATH", none),
   (c! "CMAKE_PROGRAM_PATH", none),
   (c! "CMAKE_PROJECT_", some (c! "_INCLUDE")),
   (c! "CMAKE_PROJECT_DESCRIPTION", none),
   (c! "CMAKE_PROJECT_NAME", none),
   (c! "CMAKE_RANLIB", none),
   (c! "CMAKE_ROOT", none),
   (c! "CMAKE_RUNTIME_OUTPUT_DIRECTORY", none),
   (c! "CMAKE_RUNTIME_OUTPUT_DIRECTORY_", some (c! "")),
   (c! "CMAKE_SCRIPT_MODE_FILE", none),
   (c! "CMAKE_SHARED_LIBRARY_PREFIX", none),
   (c! "CMAKE_SHARED_LIBRARY_SUFFIX", none),
   (c! "CMAKE_SHARED_LINKER_FLAGS", none),
   (c! "CMAKE_SHARED_LINKER_FLAGS_", some (c! "")),
   (c! "CMAKE_SHARED_LINKER_FLAGS_", some (c! "_INIT")),
   (c! "CMAKE_SHARED_LINKER_FLAGS_INIT", none),
   (c! "CMAKE_SHARED_MODULE_PREFIX", none),
   (c! "CMAKE_SHARED_MODULE_SUFFIX", none),
   (c! "CMAKE_SIZEOF_VOID_P", none),
   (c! "CMAKE_SKIP_BUILD_RPATH", none),
   (c! "CMAKE_SKIP_INSTALL_ALL_DEPENDENCY", none),
   (c! "CMAKE_SKIP_INSTALL_RPATH", none),
   (c! "CMAKE_SKIP_INSTALL_RULES", none),
   (c! "CMAKE_SKIP_RPATH", none),
   (c! "CMAKE_SOURCE_DIR", none),
   (c! "CMAKE_STAGING_PREFIX", none),
   (c! "CMAKE_STATIC_LIBRARY_PREFIX", none),
   (c! "CMAKE_STATIC_LIBRARY_SUFFIX", none),
   (c! "CMAKE_STATIC_LINKER_FLAGS", none),
   (c! "CMAKE_STATIC_LINKER_FLAGS_", some (c! "")),
   (c! "CMAKE_STATIC_LINKER_FLAGS_", some (c! "_INIT")),
   (c! "CMAKE_STATIC_LINKER_FLAGS_INIT", none),
   (c! "CMAKE_SUBLIME_TEXT_2_ENV_SETTINGS", none),
   (c! "CMAKE_SUBLIME_TEXT_2_EXCLUDE_BUILD_TREE", none),
   (c! "CMAKE_SYSROOT", none)]

/-- `PATTERNS`, parse/variables.py:331-370. -/
def patterns9 : List (Str × Option Str) :=
  [(c! "CMAKE_SYSROOT_COMPILE", none),
   (c! "CMAKE_SYSROOT_LINK", none),
   (c! "CMAKE_SYSTEM", none),
   (c! "CMAKE_SYSTEM_APPBUNDLE_PATH", none),
   (c! "CMAKE_SYSTEM_FRAMEWORK_PATH", none),
   (c! "CMAKE_SYSTEM_IGNORE_PATH", none),
   (c! "CMAKE_SYSTEM_INCLUDE_PATH", none),
   (c! "CMAKE_SYSTEM_LIBRARY_PATH", none),
   (c! "CMAKE_SYSTEM_NAME", none),
   (c! "CMAKE_SYSTEM_PREFIX_PATH", none),
   (c! "CMAKE_SYSTEM_PROCESSOR", none),
   (c! "CMAKE_SYSTEM_PROGRAM_PATH", none),
   (c! "CMAKE_SYSTEM_VERSION", none),
   (c! "CMAKE_Swift_LANGUAGE_VERSION", none),
   (c! "CMAKE_TOOLCHAIN_FILE", none),
   (c! "CMAKE_TRY_COMPILE_CONFIGURATION", none),
   (c! "CMAKE_TRY_COMPILE_PLATFORM_VARIABLES", none),
   (c! "CMAKE_TRY_COMPILE_TARGET_TYPE", none),
   (c! "CMAKE_TWEAK_VERSION", none),
   (c! "CMAKE_USER_MAKE_RULES_OVERRIDE", none),
   (c! "CMAKE_USER_MAKE_RULES_OVERRIDE_", some (c! "")),
   (c! "CMAKE_USE_RELATIVE_PATHS", none),
   (c! "CMAKE_VERBOSE_MAKEFILE", none),
   (c! "CMAKE_VERSION", none),
   (c! "CMAKE_VISIBILITY_INLINES_HIDDEN", none),
   (c! "CMAKE_VS_DEVENV_COMMAND", none),
   (c! "CMAKE_VS_INCLUDE_INSTALL_TO_DEFAULT_BUILD", none),
   (c! "CMAKE_VS_INCLUDE_PACKAGE_TO_DEFAULT_BUILD", none),
   (c! "CMAKE_VS_INTEL_Fortran_PROJECT_VERSION", none),
   (c! "CMAKE_VS_MSBUILD_COMMAND", none),
   (c! "CMAKE_VS_NsightTegra_VERSION", none),
   (c! "CMAKE_VS_PLATFORM_NAME", none),
   (c! "CMAKE_VS_PLATFORM_TOOLSET", none),
   (c! "CMAKE_VS_PLATFORM_TOOLSET_CUDA", none),
   (c! "CMAKE_VS_PLATFORM_TOOLSET_HOST_ARCHITECTURE", none),
   (c! "CMAKE_VS_WINDOWS_TARGET_PLATFORM_VERSION", none),
   (c! "CMAKE_WARN_DEPRECATED", none),
   (c! "CMAKE_WARN_ON_ABSOLUTE_INSTALL_DESTINATION", none),
   (c! "CMAKE_WIN32_EXECUTABLE", none),
   (c! "CMAKE_WINDOWS_EXPORT_ALL_SYMBOLS", none)]

/-- `PATTERNS`, parse/variables.py:371-410. -/
def patterns10 : List (Str × Option Str) :=
  [(c! "CMAKE_XCODE_ATTRIBUTE_", some (c! "")),
   (c! "CMAKE_XCODE_GENERATE_SCHEME", none),
   (c! "CMAKE_XCODE_PLATFORM_TOOLSET", none),
   (c! "CPACK_ABSOLUTE_DESTINATION_FILES", none),
   (c! "CPACK_COMPONENT_INCLUDE_TOPLEVEL_DIRECTORY", none),
   (c! "CPACK_ERROR_ON_ABSOLUTE_INSTALL_DESTINATION", none),
   (c! "CPACK_INCLUDE_TOPLEVEL_DIRECTORY", none),
   (c! "CPACK_INSTALL_SCRIPT", none),
   (c! "CPACK_PACKAGING_INSTALL_PREFIX", none),
   (c! "CPACK_SET_DESTDIR", none),
   (c! "CPACK_WARN_ON_ABSOLUTE_INSTALL_DESTINATION", none),
   (c! "CTEST_BINARY_DIRECTORY", none),
   (c! "CTEST_BUILD_COMMAND", none),
   (c! "CTEST_BUILD_NAME", none),
   (c! "CTEST_BZR_COMMAND", none),
   (c! "CTEST_BZR_UPDATE_OPTIONS", none),
   (c! "CTEST_CHANGE_ID", none),
   (c! "CTEST_CHECKOUT_COMMAND", none),
   (c! "CTEST_CONFIGURATION_TYPE", none),
   (c! "CTEST_CONFIGURE_COMMAND", none),
   (c! "CTEST_COVERAGE_COMMAND", none),
   (c! "CTEST_COVERAGE_EXTRA_FLAGS", none),
   (c! "CTEST_CURL_OPTIONS", none),
   (c! "CTEST_CUSTOM_COVERAGE_EXCLUDE", none),
   (c! "CTEST_CUSTOM_ERROR_EXCEPTION", none),
   (c! "CTEST_CUSTOM_ERROR_MATCH", none),
   (c! "CTEST_CUSTOM_ERROR_POST_CONTEXT", none),
   (c! "CTEST_CUSTOM_ERROR_PRE_CONTEXT", none),
   (c! "CTEST_CUSTOM_MAXIMUM_FAILED_TEST_OUTPUT_SIZE", none),
   (c! "CTEST_CUSTOM_MAXIMUM_NUMBER_OF_ERRORS", none),
   (c! "CTEST_CUSTOM_MAXIMUM_NUMBER_OF_WARNINGS", none),
   (c! "CTEST_CUSTOM_MAXIMUM_PASSED_TEST_OUTPUT_SIZE", none),
   (c! "CTEST_CUSTOM_MEMCHECK_IGNORE", none),
   (c! "CTEST_CUSTOM_POST_MEMCHECK", none),
   (c! "CTEST_CUSTOM_POST_TEST", none),
   (c! "CTEST_CUSTOM_PRE_MEMCHECK", none),
   (c! "CTEST_CUSTOM_PRE_TEST", none),
   (c! "CTEST_CUSTOM_TEST_IGNORE", none),
   (c! "CTEST_CUSTOM_WARNING_EXCEPTION", none),
   (c! "CTEST_CUSTOM_WARNING_MATCH", none)]

/-- `PATTERNS`, parse/variables.py:411-450. -/
def patterns11 : List (Str × Option Str) :=
  [(c! "CTEST_CVS_CHECKOUT", none),
   (c! "CTEST_CVS_COMMAND", none),
   (c! "CTEST_CVS_UPDATE_OPTIONS", none),
   (c! "CTEST_DROP_LOCATION", none),
   (c! "CTEST_DROP_METHOD", none),
   (c! "CTEST_DROP_SITE", none),
   (c! "CTEST_DROP_SITE_CDASH", none),
   (c! "CTEST_DROP_SITE_PASSWORD", none),
   (c! "CTEST_DROP_SITE_USER", none),
   (c! "CTEST_EXTRA_COVERAGE_GLOB", none),
   (c! "CTEST_GIT_COMMAND", none),
   (c! "CTEST_GIT_INIT_SUBMODULES", none),
   (c! "CTEST_GIT_UPDATE_CUSTOM", none),
   (c! "CTEST_GIT_UPDATE_OPTIONS", none),
   (c! "CTEST_HG_COMMAND", none),
   (c! "CTEST_HG_UPDATE_OPTIONS", none),
   (c! "CTEST_LABELS_FOR_SUBPROJECTS", none),
   (c! "CTEST_MEMORYCHECK_COMMAND", none),
   (c! "CTEST_MEMORYCHECK_COMMAND_OPTIONS", none),
   (c! "CTEST_MEMORYCHECK_SANITIZER_OPTIONS", none),
   (c! "CTEST_MEMORYCHECK_SUPPRESSIONS_FILE", none),
   (c! "CTEST_MEMORYCHECK_TYPE", none),
   (c! "CTEST_NIGHTLY_START_TIME", none),
   (c! "CTEST_P4_CLIENT", none),
   (c! "CTEST_P4_COMMAND", none),
   (c! "CTEST_P4_OPTIONS", none),
   (c! "CTEST_P4_UPDATE_OPTIONS", none),
   (c! "CTEST_SCP_COMMAND", none),
   (c! "CTEST_SITE", none),
   (c! "CTEST_SOURCE_DIRECTORY", none),
   (c! "CTEST_SVN_COMMAND", none),
   (c! "CTEST_SVN_OPTIONS", none),
   (c! "CTEST_SVN_UPDATE_OPTIONS", none),
   (c! "CTEST_TEST_LOAD", none),
   (c! "CTEST_TEST_TIMEOUT", none),
   (c! "CTEST_TRIGGER_SITE", none),
   (c! "CTEST_UPDATE_COMMAND", none),
   (c! "CTEST_UPDATE_OPTIONS", none),
   (c! "CTEST_UPDATE_VERSION_ONLY", none),
   (c! "CTEST_USE_LAUNCHERS", none)]

/-- `PATTERNS`, parse/variables.py:451-484. -/
def patterns12 : List (Str × Option Str) :=
  [(c! "CYGWIN", none),
   (c! "ENV", none),
   (c! "EXECUTABLE_OUTPUT_PATH", none),
   (c! "GHS-MULTI", none),
   (c! "LIBRARY_OUTPUT_PATH", none),
   (c! "MINGW", none),
   (c! "MSVC", none),
   (c! "MSVC10", none),
   (c! "MSVC11", none),
   (c! "MSVC12", none),
   (c! "MSVC14", none),
   (c! "MSVC60", none),
   (c! "MSVC70", none),
   (c! "MSVC71", none),
   (c! "MSVC80", none),
   (c! "MSVC90", none),
   (c! "MSVC_IDE", none),
   (c! "MSVC_VERSION", none),
   (c! "PROJECT_BINARY_DIR", none),
   (c! "PROJECT_DESCRIPTION", none),
   (c! "PROJECT_NAME", none),
   (c! "PROJECT_SOURCE_DIR", none),
   (c! "PROJECT_VERSION", none),
   (c! "PROJECT_VERSION_MAJOR", none),
   (c! "PROJECT_VERSION_MINOR", none),
   (c! "PROJECT_VERSION_PATCH", none),
   (c! "PROJECT_VERSION_TWEAK", none),
   (c! "UNIX", none),
   (c! "WIN32", none),
   (c! "WINCE", none),
   (c! "WINDOWS_PHONE", none),
   (c! "WINDOWS_STORE", none),
   (c! "XCODE", none),
   (c! "XCODE_VERSION", none)]

/-- `stripped_patterns()`, parse/variables.py:10-485 and 488-494. -/
def builtinPatterns : List (Str × Option Str) :=
  patterns1 ++ patterns2 ++ patterns3 ++ patterns4 ++ patterns5 ++ patterns6 ++
  patterns7 ++ patterns8 ++ patterns9 ++ patterns10 ++ patterns11 ++ patterns12

end Verif.Lint
