import Verif.Model.Native.RustReader

/-!
# Model of strings in raw data: `flatdata-cpp/include/flatdata/MemoryDescriptor.h:55-59`, `flatdata-rs/lib/src/rawdata.rs:27-31`
-/

namespace Model.Native
open Py Model

/-- MemoryDescriptor.h:55-59: `std::string( data.char_ptr( ) + start )` for raw data whose memory, up to the end of the file, is `mem`: the
bytes before the first zero byte; `none` if there is none and the memory behind the file is read. -/
def cppString (mem : Bytes) (start : Nat) : Option Bytes :=
  let rest := mem.drop start
  if (0 : UInt8) ∈ rest then some (rest.takeWhile (· ≠ 0)) else none

/-- rawdata.rs:27-31 `substring`; `none` is a panic, an error one of UTF-8. -/
def rustSubstringStr (data : Bytes) (start : Nat) : Option (M String) := (rustSubstring data start).map decodeUtf8

end Model.Native
