import Verif.Model.Platform

/-!
# Model of the texts of `include/ieompp/platform.hpp` that are fixed when a program is compiled

What the preprocessor knows about the build is the structure `Build`.
-/

set_option autoImplicit false

namespace Ieompp.App

open IO

/-- The branches of `compiler()` with the version numbers that they print; `intel` has `__INTEL_COMPILER`. platform.hpp:51-69. -/
inductive Compiler where
  | clang (major minor patch : ℕ)
  | gcc (major minor patch : ℕ)
  | intel (version : ℕ)
  | untested
  deriving DecidableEq

/-- The branches of `architecture()`. platform.hpp:30-40. -/
inductive Arch where
  | x86_32
  | x86_64
  | untested
  deriving DecidableEq

/-- The branches of `cpp_library()`, with `BOOST_LIB_STD_GNU` and `_LIBCPP_VERSION`. platform.hpp:71-81. -/
inductive Library where
  | gnu (version : ℕ)
  | cxx (version : ℕ)
  | unknown
  deriving DecidableEq

/-- platform.hpp:102: `enum class Endian`. -/
inductive Endian where
  | unknown
  | big
  | little
  | bigWord
  | littleWord
  deriving DecidableEq

/-- platform.hpp:51-69: `Platform::compiler()`; the conversion to `uint16_t` keeps 16 bits. -/
def compilerText : Compiler → Text
  | .clang a b c => "clang ".toList ++ natText a ++ ['.'] ++ natText b ++ ['.'] ++ natText c
  | .gcc a b c => "gcc ".toList ++ natText a ++ ['.'] ++ natText b ++ ['.'] ++ natText c
  | .intel v => "intel ".toList ++ natText (v / 100 % 2 ^ 16) ++ ['.'] ++ natText (v % 100) ++ ['.'] ++ natText (v % 10)
  | .untested => "UntestedCompiler".toList

/-- platform.hpp:30-40: `Platform::architecture()`. -/
def archText : Arch → Text
  | .x86_32 => "x86_32".toList
  | .x86_64 => "x86_64".toList
  | .untested => "UntestedArch".toList

/-- platform.hpp:42-50: `Platform::operating_system()`; the argument is `BOOST_OS_LINUX`. -/
def osText (linux : Bool) : Text := if linux then "Linux".toList else "UntestedOS".toList

/-- platform.hpp:71-81: `Platform::cpp_library()`. -/
def libraryText : Library → Text
  | .gnu v => "libstdc++".toList ++ natText v
  | .cxx v => "libc++".toList ++ natText v
  | .unknown => "UnknownC++Library".toList

/-- platform.hpp:120-139: `operator<<(std::ostream&, Platform::Endian)`. -/
def endianText : Endian → Text
  | .big => "BigEndian".toList
  | .little => "LittleEndian".toList
  | .bigWord => "BigWordSwappedEndian".toList
  | .littleWord => "LittleWordSwappedEndian".toList
  | .unknown => "UnknownEndian".toList

/-- platform.hpp:103-115: `Platform::endianess()` with the macros of boost for the four byte orders; `none` = the program does not compile. The macro
`BOOST_LITTLE_WORD` does not exist, so that its branch is never taken, and the last branch names an enumerator that does not exist. -/
def endianess (bigByte littleByte bigWord _littleWord : Bool) : Option Endian :=
  if bigByte then some .big
  else if littleByte then some .little
  else if bigWord then some .bigWord
  else none

/-- What is known when a program is compiled. platform.hpp:22-117. -/
structure Build where
  version : Text
  boost : ℕ
  blaze : Text
  arch : Arch
  linux : Bool
  compiler : Compiler
  library : Library
  endian : Endian

/-- The machine on which a program built this way runs. platform.hpp:22-117. -/
def Build.machine (b : Build) (logname : Option Text) (hostname : Text) (threads : ℕ) (logText optionsText : Text) : Machine where
  logname := logname
  hostname := hostname
  version := b.version
  boost := b.boost
  blaze := b.blaze
  arch := archText b.arch
  os := osText b.linux
  compiler := compilerText b.compiler
  library := libraryText b.library
  endian := endianText b.endian
  threads := threads
  logText := logText
  optionsText := optionsText

end Ieompp.App
