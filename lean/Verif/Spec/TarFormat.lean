import Verif.Py.Basic

/-!
# Tar files (POSIX 1003.1-1990 and GNU)

A file is a sequence of members. A member has a header block of 512 bytes and, for regular files, the contents, filled up to a multiple
of 512 bytes.
-/

namespace Spec
open Py

/-- The bytes `first`, …, `first + length - 1`. -/
def tarSlice (h : Bytes) (first length : Nat) : Bytes := (h.drop first).take length

/-- The field holds the text: it fills the field, or it is followed by a zero byte. Texts have no zero bytes. -/
def TextField (field text : Bytes) : Prop := 0 ∉ text ∧ ∃ rest, field = text ++ rest ∧ (rest = [] ∨ rest.head? = some 0)

/-- The number with these digits, most significant first. -/
def bigEndian (base : Nat) (digits : List Nat) : Nat := digits.foldl (fun n d => n * base + d) 0

/-- The field holds the number as octal digits, which fill the field or are followed by a zero byte; or (GNU) as a number to the base 256 whose first
bit, which does not belong to the number, is set. -/
def NumberField (field : Bytes) (n : Nat) : Prop :=
  (∃ digits : List Nat, (∀ d ∈ digits, d < 8) ∧ TextField field (digits.map fun d => UInt8.ofNat (48 + d)) ∧ n = bigEndian 8 digits) ∨
  ∃ digits : List Nat, digits ≠ [] ∧ (∀ d ∈ digits, d < 256) ∧ (∀ d ∈ digits.head?, d < 128) ∧
    field = (digits.modifyHead (· + 128)).map UInt8.ofNat ∧ n = bigEndian 256 digits

/-- A header block of a member with this name, type and size. The checksum is the sum of all bytes, where those of the checksum count as
blanks. The other fields can hold anything. -/
structure TarHeader (h name : Bytes) (type : UInt8) (size : Nat) : Prop where
  length : h.length = 512
  name : TextField (tarSlice h 0 100) name
  size : NumberField (tarSlice h 124 12) size
  checksum : NumberField (tarSlice h 148 8) (((tarSlice h 0 148 ++ List.replicate 8 32 ++ tarSlice h 156 356).map UInt8.toNat).sum)
  type : tarSlice h 156 1 = [type]

/-- The contents, filled up to a multiple of 512 bytes. -/
def TarBlocks (blocks content : Bytes) : Prop := ∃ fill, blocks = content ++ fill ∧ blocks.length % 512 = 0 ∧ fill.length < 512

/-- `image` is a tar file with these regular files (names and contents), in this order: regular files with names that fit the header; regular
files with a long name, which is the contents of a member of type `L` before it; directories with names that fit the header. The
end is a block of zeros, whatever comes after it, or the end of the image. -/
inductive TarImage : List (Bytes × Bytes) → Bytes → Prop
  | empty : TarImage [] []
  | last (rest : Bytes) : rest.length % 512 = 0 → TarImage [] (List.replicate 512 0 ++ rest)
  | file {h name content blocks files image} (type : UInt8) : type = 48 ∨ type = 0 → TarHeader h name type content.length → TarBlocks blocks content →
      TarImage files image → TarImage ((name, content) :: files) (h ++ blocks ++ image)
  | directory {h name n files image} : TarHeader h name 53 n → TarImage files image → TarImage files (h ++ image)
  | longName {l any text fill nameBlocks h name content blocks files image} (type : UInt8) : TextField text name → name ≠ [] → TarHeader l any 76 text.length →
      TarBlocks nameBlocks text → type = 48 ∨ type = 0 → TarHeader h fill type content.length → TarBlocks blocks content →
      TarImage files image → TarImage ((name, content) :: files) (l ++ nameBlocks ++ h ++ blocks ++ image)

/-- The members are the files of a directory: the name of a member is the path of a file (in UTF-8), with or without `./` in front of it. (Paths
do not begin with `./` themselves.) -/
structure FilesOf (f : String → Option Bytes) (files : List (Bytes × Bytes)) : Prop where
  sound : ∀ name content, (name, content) ∈ files → ∃ path, f path = some content ∧ (name = encodeUtf8 path ∨ name = [46, 47] ++ encodeUtf8 path)
  complete : ∀ path content, f path = some content → (encodeUtf8 path).take 2 ≠ [46, 47] ∧
    ∃ name, (name, content) ∈ files ∧ (name = encodeUtf8 path ∨ name = [46, 47] ++ encodeUtf8 path)

end Spec
