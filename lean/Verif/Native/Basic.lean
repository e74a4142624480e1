import Verif.Py.Basic

/-!
# Primitives of the compiled languages

What the fixed-width integer and memory operations the C++, Rust and Go sources use mean.  Nothing in
this file is flatdata code; it is part of the trusted base (see DESIGN.md).  Fixed-width integers are
`BitVec`s; an `n`-byte object in memory is little-endian (the sources convert with `little_to_native`,
`from_le`).  A memory access outside of the buffer (undefined behaviour in C++ and in Rust's `unsafe`
blocks, a panic otherwise) and every other panic is `none`.
-/

namespace Native
open Py

/-- Copy `n` bytes at address `a` of the buffer into an integer of `n` bytes. -/
def load (d : Bytes) (a n : Nat) : Option (BitVec (8 * n)) :=
  if a + n ≤ d.length then some (BitVec.ofNat _ (fromLE (sliceNN d a (a + n)))) else none

/-- Copy an integer of `n` bytes to address `a` of the buffer. -/
def store (d : Bytes) (a n : Nat) (x : BitVec (8 * n)) : Option Bytes :=
  if a + n ≤ d.length then some (d.take a ++ toLE n x.toNat ++ d.drop (a + n)) else none

/-- The byte at address `a`. -/
def byteAt (d : Bytes) (a : Nat) : Option (BitVec 8) := load d a 1

/-- The value of an `n`-bit integer variable. -/
def valueOf (signed : Bool) {n : Nat} (x : BitVec n) : Int := if signed then x.toInt else x.toNat

end Native
