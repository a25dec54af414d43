import Verif.Host.RegistryProps

/-
The libraries that come with wrench: what each `wr_load...Lib` puts into the registry of the state.

Simplifications.  A C function is given by its name, and its address is a parameter.  The values of the
constants (O_RDONLY and so on come from the C library) are a parameter.  The build has
WRENCH_INCLUDE_DEBUG_CODE, the file functions and the TCP functions; the libraries for boards are left out.
-/
namespace Wrench.Libs

open Wrench Wrench.Registry Wrench.HashTable

/-- What a name stands for: a C function or a constant. -/
inductive Thing where
  | fn (c : String)
  | const (c : String)
deriving DecidableEq, Repr

inductive Lib where
  | math | std | io | str | msg | sys | serialize | debug | tcp | container
deriving DecidableEq, Repr

/-- `wr_loadMathLib`, discrete_src/lib/std_math.cpp 287-316. -/
def mathNames : List (String × Thing) :=
  [("math::sin", .fn "wr_math_sin"), ("math::cos", .fn "wr_math_cos"), ("math::tan", .fn "wr_math_tan"),
   ("math::sinh", .fn "wr_math_sinh"), ("math::cosh", .fn "wr_math_cosh"), ("math::tanh", .fn "wr_math_tanh"),
   ("math::asin", .fn "wr_math_asin"), ("math::acos", .fn "wr_math_acos"), ("math::atan", .fn "wr_math_atan"),
   ("math::atan2", .fn "wr_math_atan2"), ("math::log", .fn "wr_math_log"), ("math::ln", .fn "wr_math_log"),
   ("math::log10", .fn "wr_math_log10"), ("math::exp", .fn "wr_math_exp"), ("math::pow", .fn "wr_math_pow"),
   ("math::fmod", .fn "wr_math_fmod"), ("math::trunc", .fn "wr_math_trunc"),
   ("math::sqrt", .fn "wr_math_sqrt"), ("math::ceil", .fn "wr_math_ceil"),
   ("math::floor", .fn "wr_math_floor"), ("math::abs", .fn "wr_math_abs"),
   ("math::ldexp", .fn "wr_math_ldexp"), ("math::deg2rad", .fn "wr_math_deg2rad"),
   ("math::rad2deg", .fn "wr_math_rad2deg"), ("math::iscale", .fn "wr_intScale")]

/-- `wr_loadStdLib`, discrete_src/lib/std.cpp 247-254. -/
def stdNames : List (String × Thing) :=
  [("std::rand", .fn "wr_std_rand"), ("std::srand", .fn "wr_std_srand"), ("std::time", .fn "wr_std_time"),
   ("time::ms", .fn "wr_milliseconds")]

/-- `wr_loadIOLib`, discrete_src/lib/std_io.cpp 344-358 with `wr_ioPushConstants`, 329-341. -/
def ioNames : List (String × Thing) :=
  [("io::readFile", .fn "wr_read_file"), ("io::writeFile", .fn "wr_write_file"),
   ("io::deleteFile", .fn "wr_delete_file"), ("io::getline", .fn "wr_getline"), ("io::open", .fn "wr_ioOpen"),
   ("io::close", .fn "wr_ioClose"), ("io::read", .fn "wr_ioRead"), ("io::write", .fn "wr_ioWrite"),
   ("io::seek", .fn "wr_ioSeek"), ("io::fsync", .fn "wr_ioFSync"), ("io::O_RDONLY", .const "O_RDONLY"),
   ("io::O_RDWR", .const "O_RDWR"), ("io::O_APPEND", .const "O_APPEND"), ("io::O_CREAT", .const "O_CREAT"),
   ("io::O_TRUNC", .const "O_TRUNC"), ("io::O_EXCL", .const "O_EXCL"), ("io::SEEK_SET", .const "SEEK_SET"),
   ("io::SEEK_CUR", .const "SEEK_CUR"), ("io::SEEK_END", .const "SEEK_END")]

/-- `wr_loadStringLib`, discrete_src/lib/std_string.cpp 898-926. -/
def strNames : List (String × Thing) :=
  [("str::strlen", .fn "wr_strlen"), ("str::sprintf", .fn "wr_sprintf"), ("str::format", .fn "wr_format"),
   ("str::printf", .fn "wr_printf"), ("str::isspace", .fn "wr_isspace"), ("str::isdigit", .fn "wr_isdigit"),
   ("str::isalpha", .fn "wr_isalpha"), ("str::mid", .fn "wr_mid"), ("str::chr", .fn "wr_strchr"),
   ("str::tolower", .fn "wr_tolower"), ("str::toupper", .fn "wr_toupper"), ("str::tol", .fn "wr_tol"),
   ("str::concat", .fn "wr_concat"), ("str::left", .fn "wr_left"), ("str::trunc", .fn "wr_left"),
   ("str::right", .fn "wr_right"), ("str::substr", .fn "wr_mid"), ("str::trimright", .fn "wr_trimright"),
   ("str::trimleft", .fn "wr_trimleft"), ("str::trim", .fn "wr_trim"), ("str::insert", .fn "wr_insert"),
   ("str::tprint", .fn "wr_tprint")]

/-- `wr_loadMessageLib`, discrete_src/lib/std_msg.cpp 88-94. -/
def msgNames : List (String × Thing) :=
  [("msg::read", .fn "wr_mboxRead"), ("msg::write", .fn "wr_mboxWrite"), ("msg::clear", .fn "wr_mboxClear"),
   ("msg::peek", .fn "wr_mboxPeek")]

/-- `wr_loadSysLib`, discrete_src/lib/std_sys.cpp 102-110. -/
def sysNames : List (String × Thing) :=
  [("sys::isFunction", .fn "wr_isFunction"), ("sys::importByteCode", .fn "wr_importByteCode"),
   ("sys::importCompile", .fn "wr_importCompile"), ("sys::halt", .fn "wr_halt")]

/-- `wr_loadSerializeLib`, discrete_src/lib/std_serialize.cpp 70-74. -/
def serializeNames : List (String × Thing) :=
  [("std::serialize", .fn "wr_stdSerialize"), ("std::deserialize", .fn "wr_stdDeserialize")]

/-- `wr_loadDebugLib`, discrete_src/lib/debug_lib.cpp 76-82. -/
def debugNames : List (String × Thing) :=
  [("debug::print", .fn "wr_debugPrint"), ("debug::println", .fn "wr_debugPrintln")]

/-- `wr_loadTCPLib`, discrete_src/lib/std_tcp.cpp 517-531. -/
def tcpNames : List (String × Thing) :=
  [("tcp::bind", .fn "wr_bindTCP"), ("tcp::accept", .fn "wr_acceptTCP"), ("tcp::connect", .fn "wr_connectTCP"),
   ("tcp::close", .fn "wr_closeTCP"), ("tcp::send", .fn "wr_sendTCP"), ("tcp::receive", .fn "wr_receiveTCP"),
   ("tcp::peek", .fn "wr_peekTCP")]

/-- `wr_loadContainerLib`, discrete_src/lib/std_container.cpp 384-419. -/
def containerNames : List (String × Thing) :=
  [("array::clear", .fn "wr_arrayClear"), ("array::count", .fn "wr_arrayCount"),
   ("array::remove", .fn "wr_arrayRemove"), ("array::insert", .fn "wr_arrayInsert"),
   ("array::truncate", .fn "wr_arrayTruncate"), ("hash::clear", .fn "wr_hashClear"),
   ("hash::count", .fn "wr_hashCount"), ("hash::add", .fn "wr_hashAdd"), ("hash::remove", .fn "wr_hashRemove"),
   ("hash::exists", .fn "wr_hashExists"), ("list::clear", .fn "wr_arrayClear"),
   ("list::count", .fn "wr_arrayCount"), ("list::peek", .fn "wr_arrayPeek"), ("list::pop", .fn "wr_arrayPop"),
   ("list::pop_front", .fn "wr_arrayPop"), ("list::pop_back", .fn "wr_arrayPopBack"),
   ("list::push", .fn "wr_arrayPush"), ("list::push_front", .fn "wr_arrayPush"),
   ("list::push_back", .fn "wr_arrayPushBack"), ("queue::clear", .fn "wr_arrayClear"),
   ("queue::count", .fn "wr_arrayCount"), ("queue::push", .fn "wr_arrayPush"),
   ("queue::pop", .fn "wr_arrayPopBack"), ("queue::peek", .fn "wr_arrayPeekBack"),
   ("stack::clear", .fn "wr_arrayClear"), ("stack::count", .fn "wr_arrayCount"),
   ("stack::push", .fn "wr_arrayPush"), ("stack::pop", .fn "wr_arrayPop"), ("stack::peek", .fn "wr_arrayPeek")]

def names : Lib → List (String × Thing)
  | .math => mathNames
  | .std => stdNames
  | .io => ioNames
  | .str => strNames
  | .msg => msgNames
  | .sys => sysNames
  | .serialize => serializeNames
  | .debug => debugNames
  | .tcp => tcpNames
  | .container => containerNames

/-- `wr_loadAllLibs`, discrete_src/lib/std.cpp 257-269. -/
def allLibs : List Lib := [.math, .std, .io, .str, .msg, .sys, .serialize, .debug, .tcp, .container]

/-- The hash of a name. -/
def nameHash (n : String) : Word32 := hashStr (n.toList.map fun c => BitVec.ofNat 8 c.toNat)

/-- The call registering one name. -/
def regOp (addr : String → BitVec 64) (val : String → Word32) (e : String × Thing) : Op :=
  match e.2 with
  | .fn c => .regLib (nameHash e.1) (addr c)
  | .const c => .regInt (nameHash e.1) (val c)

/-- What a host and its scripts do: load a library, register a function or constant of their own, call functions of
their own and library functions, read constants. -/
inductive Ev where
  | load (l : Lib)
  | own (h : Word32) (a usr : BitVec 64)
  | ownLib (h : Word32) (a : BitVec 64)
  | ownConst (h : Word32) (i : Word32)
  | call (c : Nat) (h : Word32)
  | libCall (h : Word32)
  | read (h : Word32)
deriving DecidableEq, Repr

def Ev.ops (addr : String → BitVec 64) (val : String → Word32) : Ev → List Op
  | .load l => (names l).map (regOp addr val)
  | .own h a u => [.regFn h a u]
  | .ownLib h a => [.regLib h a]
  | .ownConst h i => [.regInt h i]
  | .call c h => [.call c h]
  | .libCall h => [.libCall h]
  | .read h => [.load h]

end Wrench.Libs
