import Verif.Model.Gen.Literals

/-!
# Model of `ArrayView` and its iterators: `flatdata-cpp/include/flatdata/internal/{ArrayView,ArrayViewIterator}.inl`, `ArrayView.h`

Pointers are addresses of 64 bits, and `size_t` and `ptrdiff_t` have 64 bits. `n` is `T::size_in_bytes( )`, a `size_t` constant, so that the
other operand of a product or quotient with it is converted to `size_t`. (Pointer arithmetic that leaves an array is undefined behaviour in
C++; here addresses wrap around, as compiled code does.)
-/

namespace Model.Native
open Py Model Gen

abbrev Address := BitVec 64

/-- The `size_t` of a size of a structure. -/
abbrev sizeT (n : Nat) : BitVec 64 := BitVec.ofNat 64 n

/-- ArrayView.h: `m_data` and `m_size`. -/
structure CppArray where
  data : Address
  size : BitVec 64
  deriving DecidableEq

/-- ArrayView.inl:10-19: from two pointers. -/
def CppArray.ofRange (overlapping : Bool) (n : Nat) (b e : Address) : CppArray :=
  let size := (e - b) / sizeT n
  ⟨b, if overlapping ∧ size ≠ 0 then size - 1 else size⟩

/-- ArrayView.inl:28-33 `operator[]`: the address of the element. -/
def CppArray.get (v : CppArray) (n : Nat) (i : BitVec 64) : Address := v.data + sizeT n * i

/-- ArrayView.inl:35-40. -/
def CppArray.front (v : CppArray) (n : Nat) : Address := v.get n 0

/-- ArrayView.inl:42-47. -/
def CppArray.back (v : CppArray) (n : Nat) : Address := v.get n (v.size - 1)

/-- ArrayView.inl:49-54. -/
def CppArray.sizeInBytes (v : CppArray) (overlapping : Bool) (n : Nat) : BitVec 64 := (v.size + (if overlapping then 1 else 0)) * sizeT n

/-- ArrayView.inl:70-75. -/
def CppArray.empty (v : CppArray) : Bool := v.size = 0

/-- ArrayView.inl:77-82. -/
def CppArray.slice (v : CppArray) (n : Nat) (pos length : BitVec 64) : CppArray := ⟨v.data + pos * sizeT n, length⟩

/-- ArrayView.inl:84-89. -/
def CppArray.sliceRange (v : CppArray) (n : Nat) (start stop : BitVec 64) : CppArray := ⟨v.data + start * sizeT n, stop - start⟩

/-- ArrayView.inl:91-96. -/
def CppArray.sliceBefore (v : CppArray) (pos : BitVec 64) : CppArray := ⟨v.data, pos⟩

/-- ArrayView.inl:98-103. -/
def CppArray.sliceAfter (v : CppArray) (n : Nat) (pos : BitVec 64) : CppArray := ⟨v.data + pos * sizeT n, v.size - pos⟩

/-- ArrayView.inl:105-110. -/
def CppArray.skip (v : CppArray) (n : Nat) (count : BitVec 64) : CppArray := v.sliceAfter n count

/-- ArrayView.inl:112-117. -/
def CppArray.skipLast (v : CppArray) (count : BitVec 64) : CppArray := v.sliceBefore (v.size - count)

/-- ArrayViewIterator.h: `m_ptr`. -/
structure CppIterator where
  ptr : Address
  deriving DecidableEq

/-- ArrayView.inl:125-130. -/
def CppArray.begin (v : CppArray) : CppIterator := ⟨v.data⟩

/-- ArrayView.inl:132-137. -/
def CppArray.end (v : CppArray) (n : Nat) : CppIterator := ⟨v.data + v.size * sizeT n⟩

/-- ArrayView.inl:139-153. -/
def CppArray.describe (v : CppArray) (overlapping : Bool) (n : Nat) : Text :=
  if ¬ v.empty then "Array of size: ".toList ++ natText v.size.toNat ++ " in ".toList ++ natText (v.sizeInBytes overlapping n).toNat ++ " bytes".toList
  else "Uninitialized Array".toList

/-- ArrayViewIterator.inl:29-35. -/
def CppIterator.next (it : CppIterator) (n : Nat) : CppIterator := ⟨it.ptr + sizeT n⟩
/-- ArrayViewIterator.inl:46-52. -/
def CppIterator.prev (it : CppIterator) (n : Nat) : CppIterator := ⟨it.ptr - sizeT n⟩
/-- ArrayViewIterator.inl:63-69, :79-86. -/
def CppIterator.add (it : CppIterator) (n : Nat) (offset : BitVec 64) : CppIterator := ⟨it.ptr + sizeT n * offset⟩
/-- ArrayViewIterator.inl:71-77, :88-95. -/
def CppIterator.sub (it : CppIterator) (n : Nat) (offset : BitVec 64) : CppIterator := ⟨it.ptr - sizeT n * offset⟩
/-- ArrayViewIterator.inl:97-102: the difference of the pointers is converted to `size_t` and divided, and the quotient is converted to
`ptrdiff_t`. -/
def CppIterator.diff (it other : CppIterator) (n : Nat) : Int := ((it.ptr - other.ptr) / sizeT n).toInt
/-- ArrayViewIterator.inl:104-116. -/
def CppIterator.eq (it other : CppIterator) : Bool := it.ptr = other.ptr
/-- ArrayViewIterator.inl:118-123. -/
def CppIterator.lt (it other : CppIterator) : Bool := it.ptr < other.ptr
/-- ArrayViewIterator.inl:125-130. -/
def CppIterator.le (it other : CppIterator) : Bool := it.ptr ≤ other.ptr
/-- ArrayViewIterator.inl:146-151 `operator*`, :160-165 `operator->`. -/
def CppIterator.deref (it : CppIterator) : Address := it.ptr
/-- ArrayViewIterator.inl:153-158. -/
def CppIterator.get (it : CppIterator) (n : Nat) (index : BitVec 64) : Address := it.ptr + sizeT n * index

/-- `for ( ; it != stop; ++it ) visit( *it );`: the loop ends and has visited `l`. -/
inductive CppLoop (n : Nat) (stop : CppIterator) : CppIterator → List Address → Prop
  | done {it} (h : it.eq stop = true) : CppLoop n stop it []
  | step {it l} (h : it.eq stop = false) (rest : CppLoop n stop (it.next n) l) : CppLoop n stop it (it.deref :: l)

/-- The same with `std::reverse_iterator`, whose `operator*` is `tmp = current; return *--tmp;`: from `end( )` to `begin( )`. -/
inductive CppReverseLoop (n : Nat) (stop : CppIterator) : CppIterator → List Address → Prop
  | done {it} (h : it.eq stop = true) : CppReverseLoop n stop it []
  | step {it l} (h : it.eq stop = false) (rest : CppReverseLoop n stop (it.prev n) l) : CppReverseLoop n stop it ((it.prev n).deref :: l)

end Model.Native
