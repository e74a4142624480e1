import Verif.Model.Builder

/-!
# Model of the C++ tar reader: `flatdata-cpp/src/TarReader.cpp`, `MemoryMappedTarFileStorage.h`, `TarArchiveResourceStorage.h`

`size_t` has 64 bits; additions of sizes wrap.
-/

namespace Model.Native
open Py Model

/-- TarReader.cpp:20-41 `TarFileHeader`: a field of the header block, by its first byte and its length. -/
def tarField (header : Bytes) (first length : Nat) : Bytes := (header.drop first).take length

/-- The `std::runtime_error`s of TarReader.cpp. -/
inductive TarErr where
  | size | tooLarge | character | checksum | truncated | unsupported
  deriving DecidableEq, Repr

/-- TarReader.cpp:56-68, the loop for base 256. -/
def decodeBase256 : Nat → Bytes → Except TarErr Nat
  | value, [] => .ok value
  | value, b :: bs => if value > (2 ^ 64 - 1) / 256 then .error .tooLarge else decodeBase256 (value * 256 + b.toNat) bs

/-- TarReader.cpp:70-84, the loop for octal numbers. (`char` is signed or not; bytes from 128 on are no digits in both cases.) -/
def decodeOctal : Nat → Bytes → Except TarErr Nat
  | value, [] => .ok value
  | value, b :: bs =>
    if b = 0 then .ok value
    else if value > (2 ^ 64 - 1) / 8 then .error .tooLarge
    else if b.toNat < 48 ∨ b.toNat > 55 then .error .character
    else decodeOctal (value * 8 + (b.toNat - 48)) bs

/-- TarReader.cpp:49-85 `decode_numeric_field`. (It is called with fields of 8 and 12 bytes.) -/
def decodeNumeric : Bytes → Except TarErr Nat
  | [] => .ok 0
  | b :: bs => if 128 ≤ b.toNat then decodeBase256 (b.toNat % 128) bs else decodeOctal 0 (b :: bs)

/-- TarReader.cpp:87-100 `verify_checksum`; the sum of 512 bytes does not wrap. -/
def verifyChecksum (header : Bytes) : Except TarErr Bool :=
  let copy := header.take 148 ++ List.replicate 8 (32 : UInt8) ++ header.drop 156
  match decodeNumeric (tarField header 148 8) with
  | .error e => .error e
  | .ok n => .ok (decide ((copy.map UInt8.toNat).sum = n))

/-- `std::string( s, strnlen( s, ... ) )`: the bytes before the first zero. -/
def untilZero (d : Bytes) : Bytes := d.takeWhile fun b => b ≠ 0

/-- TarReader.h:19-24 `TarFileEntry`. -/
structure TarEntry where
  name : Bytes
  offset : Nat
  size : Nat
  deriving DecidableEq, Repr

/-- The local variables of `read_tar_file_entries` that change: TarReader.cpp:114-118. -/
structure TarState where
  offset : Nat
  longName : Bytes
  entries : List TarEntry
  deriving DecidableEq, Repr

/-- What an iteration of the loop leads to. `fault`: the program reads outside of the file. -/
inductive TarStep where
  | next (s : TarState)
  | done (entries : List TarEntry)
  | error (e : TarErr)
  | fault
  deriving DecidableEq, Repr

/-- TarReader.cpp:154, :164: what is missing to the next block. -/
def tarPadding (n : Nat) : Nat := (512 - n % 512) % 512

/-- TarReader.cpp:120-179, an iteration of the loop. -/
def tarStep (data : Bytes) (s : TarState) : TarStep :=
  if s.offset < data.length then
    if s.offset + 512 ≤ data.length then
      let header := (data.drop s.offset).take 512
      let offset := s.offset + 512
      if header.all (fun b => b == 0) then .done s.entries
      else match verifyChecksum header with
        | .error e => .error e
        | .ok false => .error .checksum
        | .ok true =>
          let flag := (header.getD 156 0).toNat
          if flag = 48 ∨ flag = 0 then
            let name := if s.longName ≠ [] then s.longName else untilZero (tarField header 0 100)
            match decodeNumeric (tarField header 124 12) with
            | .error e => .error e
            | .ok size => .next ⟨(offset + (size + tarPadding size) % 2 ^ 64) % 2 ^ 64, [], s.entries ++ [⟨name, offset, size⟩]⟩
          else if flag = 53 then .next ⟨offset, s.longName, s.entries⟩
          else if flag = 76 then
            match decodeNumeric (tarField header 124 12) with
            | .error e => .error e
            | .ok size =>
              if size > data.length - offset then .error .truncated
              else .next ⟨(offset + (size + tarPadding size) % 2 ^ 64) % 2 ^ 64, untilZero ((data.drop offset).take size), s.entries⟩
          else .error .unsupported
    else .fault
  else .done s.entries

/-- The loop of `read_tar_file_entries`, at most `n` iterations; `none`: it has not ended. -/
def tarRun (data : Bytes) : Nat → TarState → Option TarStep
  | 0, _ => none
  | n + 1, s => match tarStep data s with
    | .next s' => tarRun data n s'
    | r => some r

/-- TarReader.cpp:103-182 `read_tar_file_entries`. -/
def readTar (data : Bytes) (n : Nat) : Option TarStep :=
  if data.length % 512 ≠ 0 then some (.error .size) else tarRun data n ⟨0, [], []⟩

/-- MemoryMappedTarFileStorage.h:64: names begin with `./` or not. -/
def tarPath (name : Bytes) : Bytes := if name.take 2 = [46, 47] then name.drop 2 else name

/-- MemoryMappedTarFileStorage.h:67-69: `std::min( file.size, m_region.get_size( ) - file.offset )` bytes (the difference wraps). -/
def tarLength (data : Bytes) (e : TarEntry) : Nat := min e.size ((data.length + 2 ^ 64 - e.offset) % 2 ^ 64)

/-- MemoryMappedTarFileStorage.h:62-70: the files by name. `emplace` leaves an entry that exists as it is. -/
def tarFiles (data : Bytes) : List TarEntry → List (Bytes × Bytes)
  | [] => []
  | e :: es => (tarPath e.name, (data.drop e.offset).take (tarLength data e)) :: tarFiles data es

/-- MemoryMappedTarFileStorage.h:73-83 `read` and TarArchiveResourceStorage.h:89-105, :120-124: the resources of a storage that was made of
the entries. (`get_path` is the composition of directories that `subdir` is.) -/
def cppTarStorage (data : Bytes) (entries : List TarEntry) : Files := fun key => (tarFiles data entries).lookup (encodeUtf8 key)

end Model.Native
