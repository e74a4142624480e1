# Formal model of heremaps/flatdata in Lean 4

## 1. Scope

`/repo` holds the same schema language with several back ends.  The model follows the Python code:

* the runtime `flatdata-py/flatdata/lib/*.py` (bit access, structures, containers, archive reader,
  archive builder, directory and tar storages, inspector, writer), and
* the generator `flatdata-generator/flatdata/generator/**.py` (basic types, enumerations, syntax
  tree, namespace merging, name resolution, traversals, checks, normalised schema printing,
  grammar, the Python template's tables, literal escaping),

and, for the claim that the back ends exchange data, the parts of the C++, Rust and Go runtimes that read and
write it (`Verif/Model/Native/*`, from C70 on).

## 2. Layout of the Lean project (`/verif/lean`)

* `Verif/Py/*`      – Python primitives: integers with `&`, `|`, `~`, `<<`, `>>`, bytes, `int.from_bytes`,
                      `int.to_bytes`, list/memoryview indexing and slicing, `slice.indices`, `range`, dicts, exceptions.
* `Verif/Native/*`  – primitives of the compiled languages: fixed-width integers (`BitVec`), loads and stores.
* `Verif/Spec/*`    – small specifications written without reference to the model (bits of a buffer,
                      two's complement, list slicing, reachability, ...).
* `Verif/Model/*`   – the model, function by function; each definition cites file and lines.
* `Verif/Lemmas/*`  – helper lemmas.
* `Verif/Props/*`   – one theorem (or more) per property plus a non-vacuity example for each.

Exceptions are modelled by `Except Err`; a `raise` is `throw`, and every Python operation that can
raise (indexing, negative shift, `to_bytes`, `dict[...]`, `memoryview(None)`, ...) raises in the model.

## 3. Per property: model and proof

| id | modelled by | proof |
|----|-------------|-------|
| C01 | `read_value` on byte lists, Python ints as `Int` | extensionality over bits; exact result for every width 1..64, offset and buffer |
| C02, C04 | `read_value`, `write_value` | composition of the bit-level characterisations |
| C03 | `write_value` incl. the loop as recursion | exact new value of every bit of the buffer |
| C05 | same | totality + congruence on the overlapped bytes |
| C06 | `Structure`, builder's serialisation loop | induction over the field list with invariant "bits from the current offset on are zero" |
| C07 | `Structure`/`Field` offset computation in the generator | induction over the field list |
| C08–C11 | `Vector`, `_VectorSlice`, `slice.indices` + `range` | arithmetic of slices, for all integers |
| C12–C16 | builder set_* functions + `Vector`, `Instance`, `Multivector` | induction over the list of elements / buckets |
| C17, C18 | `RawData` | list slicing lemmas; loop invariants |
| C19 | `to_numpy` as an array of optional rows | induction over enumeration |
| C20, C21 | `_Resource.add_size/add_padding`, container constructors | direct + case analysis |
| C22–C27 | `Archive` with a storage oracle, recursive archives | induction over the archive type |
| C28–C31, C34, C35 | `ArchiveBuilder` as a state machine over a file system | invariants over arbitrary histories of calls |
| C32 | builder composed with reader | composition of C12–C17, C20, C22 |
| C33 | trace of file operations, crash = any prefix | invariant over prefixes |
| C36, C37 | `TarArchiveResourceStorage`, `FileResourceStorage` over a directory tree | induction over paths and trees |
| C38 | `Inspector`/`open_archive` | case analysis |
| C39 | `Writer._get_archive_name` | list (character) lemmas |
| C40, C41 | `bits_required`, constant creation | arithmetic |
| C42–C44 | `Enumeration.create` | induction over the declared values |
| C45 | basic types | finite case analysis on the type, all widths |
| C46–C48 | syntax tree, `build_ast`, resolver | structural induction |
| C49–C51 | traversals over arbitrary finite graphs | loop invariants, termination by measure |
| C52–C55, C61 | archive checks and accessors | list lemmas |
| C56, C57 | normalised schema printer, grammar as a recursive-descent/token parser | parser/printer round trip ⇒ injectivity |
| C58 | escaping filters + Python string literal evaluation | induction over characters |
| C59 | Rust number formatting | induction over digits |
| C60 | Python template tables | direct, then runtime theorems are instantiated with generated types |
| C62, C63 | structure sizes and offsets, builtin index types | induction over the compile loop; the generated index type is the runtime's `indexType` |
| C64 | the whole compile pipeline with explicit fuel | fuel bound by induction; acyclicity from the cycle check |
| C65 | explicit reference check | list lemmas |
| C66 | `Spec/Declared.lean`: what a parsed definition says about a node; the whole compile pipeline | per pass: what becomes of the children of a node (`Carried`), composed over all passes; converse by tracking new nodes |
| C67 | `Spec/Usage.lean`: which values suit a declared resource; generated classes (C60) inside the runtime model | generated signatures meet the hypotheses of C32: fields by C62, index type by C63/C66, file names by identifiers without dots |
| C68 | `Spec/Alike.lean`: signatures that differ in schema texts only; generated classes of two schemas (C60) in the runtime model | equal archive schemas have equal definitions (C57), hence `Alike` classes; opening is the same for `Alike` signatures (both schema comparisons succeed); with C67 for data written by a builder |
| C69 | `Spec/Tokens.lean`: the tokens of a text, as a relation | every pyparsing expression of the grammar maps texts of the same tokens to the same value and rests of the same tokens; closed under all combinators; repetitions by progress (`repetitions_exact`) |
| C70, C71 | `Model/Native/Cpp.lean`: `Reader`, `Writer` with template parameters as arguments | bits of every intermediate `BitVec`; case split on the ninth byte |
| C72, C73 | `Model/Native/Rust.lean`: the macros `flatdata_read_bytes`, `flatdata_write_bytes` | the same; the defect of fields of nine bytes is stated exactly |
| C74 | `Model/Native/Go.lean`: `Read` and generated accessors | loop invariant: the accumulated bits are the first bits of the field |
| C75 | the four readers, the two writers | C01, C70–C74; for "only if" a buffer for each of the four kinds of excluded fields |
| C76 | histories of assignments (`assignAll`) | invariant: every field holds the last value, other bits are 0; both results have the bits of `Spec.image` (C06) |
| C77 | `Model/Builder.lean`, the files after the calls (`filesOfState`) | `Spec/Files.lean` (`frame`, `structBytes`, `vectorBytes`, `bucketsBytes`, `indexBytes`) compared with the written operations |
| C78 | `Model/Native/CppStorage.lean`: streams, `ResourceHandle`, `ExternalVector`, `MultiVector`, `Vector`, `Struct`, `set` | invariant: flushed bytes ++ buffer are the documented payload so far; for `Vector` an invariant over histories of operations |
| C79 | `Model/Native/CppReader.lean`: `read_resource`, `read_and_check_schema`, `ArrayView`, `MultiArrayView` | C70 for the members; induction over the elements of a bucket |
| C80 | the two runtimes together | C12–C14, C77–C79 |
| C81 | `Model/Native/RustStorage.lean`: streams, `ExternalVector`, `Vector`, `MultiVector`, `write`, `create_archive` | as C78: flushed bytes ++ buffer without the spare element are the documented payload so far |
| C82 | `Model/Native/RustReader.lean`: `read_and_check_schema`, `from_bytes`, getters, ranges, `MultiArrayView` and its iterators | C72 for the getters; induction over the elements of a bucket and over schedules of `next`/`next_back` |
| C83 | the three runtimes together | C77–C82: the same documented bytes on both sides |
| C84 | `Model/Native/RustReader.lean`: the generated `open`, `check_resource`, `check_optional_resource` | specification `OpensTo`; induction on the size of the resource tree |
| C85 | `Model/Native/CppArchive.lean`: `initialize`, `load_contents`, `read_resource`, `load_archive` | specifications `CppFine`, `CppOpensTo`; the same induction |
| C86 | both `open` functions | induction over `OpensTo`; C70 and C72 for the values |
| C87 | `Model/Native/GoReader.lean`: generated accessors, `GetSize`, `Get`, `GetSlice`, `GetValue`, multivector objects with their shared elements | C74 for the accessors; induction over the elements of a bucket, with the position of the last element of every type |
| C88 | `Model/Native/GoReader.lean`: `GetMemoryDescriptor`, the generated `Open...Archive` | specification `GoOpensTo`; induction on the size of the resource tree; induction over `OpensTo` for the comparison with Rust |
| C89 | `Model/Gen/NativeClasses.lean`: what the C++, Rust and Go templates write for structures and enumerations; `Spec/NativeClasses.lean`: how a compiler looks up types | declared fields by C62/C66; for C++ induction over the dependency order (C58); qualified names are injective; values of enumerations by C66 |
| C90 | the getters of C70 and C72 on the classes of C89 | the masked number has at most the bits of the field; the enumeration has all values of this width (C89) |
| C91 | `Model/Native/Members.lean`: `operator==`, `operator<`, `PartialEq`, `fill_from`, over lists of members | values of a field are equal exactly if its bits are (C70, C72); induction over the members; fields without gaps contain every bit |
| C92 | `Model/Native/Members.lean`: `Tagged` members, getters and setters with an invalid value | C70–C73 and the correspondence of values and bits |
| C93 | `Model/Gen/NativeConstants.lean`: `constant.jinja2`, `Tagged`/`Option` members, `camel_to_snake_case`; `Spec/NativeConstants.lean`: how a compiler looks up constants, Rust integer literals | constants of fields by C66/C67; for C++ induction over the dependency order (C58); for Rust names without lower-case letters are unchanged, and no declared name has one; C59 for literals |
| C94 | `Model/Native/CppTar.lean`: `TarReader.cpp`, `MemoryMappedTarFileStorage.h`, function by function, with wrapping sizes; `Spec/TarFormat.lean`: headers, numbers and images of POSIX/GNU tar as relations | every field of the specification is decoded; induction over the image, with the data before it as a prefix; `emplace` and `./` by `FilesOf` |
| C95 | the same model, arbitrary bytes; `fault` is a read outside of the file | invariant: the offset is a multiple of 512 (wrapping keeps that), entries belong to valid headers; the offset grows by a block if the size is below 2^62; what `decode_numeric_field` accepts is a `NumberField` |
| C96 | `Model/Native/CppDiff.lean`: `to_lines`, the table as a flat list, the walk back, the three loops of `create_context`; `Spec/Diff.lean`: edit scripts | invariants of the loops (the table has the distances); every script costs at least the distance (induction from its end); counters of the context as distances to the next change |
| C97 | `Model/Archive.lean` and `Model/Native/RustReader.lean` together: a directory tree, its files by path | induction over C84's description of what Rust opens; every resource is found by Python in the sorted list of attributes; elements of a bucket by induction over the iteration in Rust |
| C98 | `Model/Gen/NativeArchives.lean`: what the Rust templates write for namespaces, structures, archives, multivectors and schemas; `Spec/NativeArchives.lean`: how a compiler looks up paths and constants, and what `open` has to read according to the schema | the program is computed in closed form; every name written is found again, since names are different; archives by induction over the dependency order (as in C60); the same declarations in Python by induction over the archive |
| C99 | `Model/Gen/NativeNames.lean`: for every item of generated Rust code the names of its members, variables of `open`, and the names it uses; `Spec/NativeNames.lean`: what a compiler demands, and the names that a schema has to avoid | escaping and the changes of case are injective on the names that remain; then each kind of item in turn; hiding by the names of the modules |
| C100 | `Model/Gen/CppArchives.lean`: what the C++ templates write for structures, archives, builders and schemas, in the order of the text; `Spec/CppArchives.lean`: how a compiler looks up types and constants; what `open` has to read is `RustArchiveAt`, as in C98 | as C98; that types are declared before they are used follows from the dependency order (C66); builders line by line; with Rust by C86 |
| C101 | `Spec/Syntax.lean`: production rules over tokens, as inductive relations; the parser is `Model/Gen/Grammar.lean` as before | soundness: every expression that matches has read a phrase of the rules (words may be cut, until a mark follows); completeness: every phrase is read by its expression, alternatives before it fail and do not raise; both closed under all combinators |
| C102 | `Model/Gen/Documentation.lean`: `to_python_doc`, `to_go_doc`, `_rust_doc` (with its regular expression), `cpp_doc`, jinja `indent`, `str.splitlines`; `Spec/Documentation.lean`: what compilers of the four languages pass over between tokens | the lines of the result are comments one by one, by induction over the lines; for Rust the lines are those of the comment, each read by the first alternative that matches |
| C103 | `Spec/WellFormed.lean`: conditions on the tree with resolved names; the passes of C46–C55 | that every pass succeeds under the conditions (`Lemmas/GenAccept.lean`: fold invariants, totality of the traversal), and that the conditions are the same for the tree with resolved names and for the final tree (`Ext`) |
| C104 | `Model/Gen/Engine.lean`: `_find_root_namespace` and `render_python_module` over the compiler and the generated Python module (C60); `Spec/Engine.lean`: the only outermost namespace | the module defines exactly the classes of C60, and `pythonName` splits at the outermost namespace; with C38, C39 and C68 |
| C105 | resolution of references in `Model/Gen/Resolve.lean`; what an explicit reference means in the source: `Spec/Declared.lean` | the structure is found in the nearest enclosing namespace that has one (C66); a field in the same place follows, and a nearer field would lie in a nearer structure |
| C106 | the stored text through parser and compiler again (`Compile` on the text of `Schema`); `Spec/Again.lean` has the two conditions on references | the parser gives back the records (C56); the tree built from them is like the compiled tree up to names of explicit references (`Like`); `_append_builtin_structures` keeps that (`AgainRoot`); then every check of the compiler passes because it passed for the original (C103), and by C66 each definition of the new tree has the old record |
| C107 | as C106; `Spec/Again.lean` has the order of decorations and constants (`Settled`); archives as in C60, the inspector as in C104 | the definitions a definition refers to are a function of its record (`Lemmas/GenDeps*.lean`), so by C106 they are the same in both trees; the dependency order of a tree contracts to the order on definitions (`Lemmas/GenOrder.lean`), which is determined by these lists; so schemas list the same records in the same order; classes by induction over both archives at once |
| C108 | `Model/Gen/Drawing.lean`: `generators/dot.py` and `templates/dot`; Python's recursion limit is the parameter `depth`. `Spec/Drawing.lean`: where a resource is shown, its types, what a drawing must contain | induction over the tree for the subgraphs; the traversal visits every archive (`order_exists`); groups and what they list from C54; the identifiers used by an edge are those of the table drawn because both are the same path |
| C109 | `Model/Native/GoText.lean`: `GetSizeInBytes`, `Close`, `ToString` on the objects that `Open` leaves (`GoLoaded`); `Spec/Json.lean`: JSON as a grammar with values, and what an object is described as | induction over opened archives with C88; lists joined by commas are JSON arrays and objects; the names written are identifiers in Go's case |
| C110 | `Model/Native/CppIterator.lean`: views and iterators with addresses, `size_t` and `ptrdiff_t` of 64 bits that wrap around; a loop is a relation. `ShowsArray`: the elements of a list are next to each other in a memory | positions of iterators and addresses correspond; products in the ring of 64-bit numbers; induction on the rest of the list for loops |
| C111 | `Model/Native/CppString.lean` with the models of C18 and C82; `Spec/StringTable.lean`: the table and where strings begin | the table splits at the string; UTF-8 has a zero byte only for NUL (by the ranges of code points); C18 |

Where the property as stated is false of the code, the model proves the exact behaviour and a
counterexample theorem, and the property's English statement was reworded to the exact behaviour.
No `_partial` theorem is left.

## 4. Trusted base

### 4.1 Logic

* Lean 4.33.0's kernel.  No axiom is declared in this project.  Every theorem depends on a subset of
  `propext`, `Classical.choice` and `Quot.sound` (the standard axioms Lean's core library and Mathlib
  use); `vcheck` replays all modules and reports 0 uses of compiled evaluation.
* `decide` / `decide +kernel` is used only for non-vacuity examples, counterexamples on literals and
  finite case distinctions over the ten basic type names or the 256 byte values; never in place of a
  universally quantified proof over an infinite domain.
* Mathlib is used for arithmetic and list/bit lemmas only.

### 4.2 What is modelled (file → Lean module)

| code | model |
|---|---|
| `flatdata-py/flatdata/lib/data_access.py` | `Model/DataAccess.lean` |
| `.../structure.py`; serialisation loops of `archive_builder.py` | `Model/Structure.lean` |
| `.../resources.py` | `Model/Resources.lean` |
| `.../archive.py`, `resource_storage.py`, `file_resource_storage.py` | `Model/Archive.lean`, `Model/Types.lean` |
| `.../archive_builder.py`, `flatdata_writer.py`, `file_resource_writer.py`, `resource_storage.py` (writer part) | `Model/Builder.lean` |
| `.../tar_archive_resource_storage.py` | `Model/TarStorage.lean` |
| `.../inspector.py`, `flatdata_writer.py` (name detection) | `Model/Inspector.lean` |
| `flatdata-generator/.../engine.py` (`render_python_module`, `_find_root_namespace`) | `Model/Gen/Engine.lean` |
| `flatdata-generator/flatdata/generator/tree/helpers/*.py`, `tree/nodes/trivial/{enumeration,enumeration_value,constant}.py` | `Model/Gen/Enumeration.lean` |
| `tree/nodes/node.py`, `tree/nodes/references.py` | `Model/Gen/Tree.lean` |
| `grammar.py` (every production and its pyparsing combinators) | `Model/Gen/Grammar.lean`, `Model/Gen/Parsed.lean` |
| `tree/builder.py` (creation, merging, builtins) | `Model/Gen/Build.lean` |
| `tree/builder.py` (checks and attribute passes, `build_ast`) | `Model/Gen/Passes.lean` |
| `tree/resolver.py` | `Model/Gen/Resolve.lean` |
| `tree/traversal.py` | `Model/Gen/Traversal.lean` |
| `tree/nodes/resources/*.py` (bound resources) | `Model/Gen/Bound.lean` |
| `tree/syntax_tree.py::schema`, `generators/flatdata.py`, `templates/flatdata/*` | `Model/Gen/Schema.lean` |
| `generators/dot.py`, `templates/dot/*`, `base.py`/`bound_resource.py::referenced_structures` | `Model/Gen/Drawing.lean` (without colours, fonts and other constant attributes; the syntax of the text is not modelled) |
| `generators/python.py`, `templates/py/python.jinja2` and the evaluation of the emitted module | `Model/Gen/Python.lean` |
| `flatdata-cpp/include/flatdata/internal/{BitHelpers,Reader,Writer}.h` (integral and enumeration fields) | `Model/Native/Cpp.lean` |
| `flatdata-rs/lib/src/{bytereader,bytewriter}.rs` | `Model/Native/Rust.lean` |
| `flatdata-go/flatdata/reader.go`, accessors of `templates/go/structure.jinja2` | `Model/Native/Go.lean` |
| `flatdata-cpp/include/flatdata/{ExternalVector,MultiVector,Vector,Struct}.h`, `internal/{ResourceHandle,ResourceStorageCommon}.h`, writers of `internal/ResourceStorage.inl`, `src/ResourceStorage.cpp` (streams that do not fail) | `Model/Native/CppStorage.lean` |
| `flatdata-cpp/include/flatdata/internal/{ResourceStorage,ArrayView}.inl`, `MultiArrayView.h`, range accessors | `Model/Native/CppReader.lean` |
| `flatdata-cpp/include/flatdata/internal/{ArrayView,ArrayViewIterator}.inl` (addresses of 64 bits, flat address space) | `Model/Native/CppIterator.lean` |
| `flatdata-cpp/include/flatdata/MemoryDescriptor.h` (`char_ptr`), `flatdata-rs/lib/src/rawdata.rs` (`substring`) | `Model/Native/CppString.lean` |
| `flatdata-cpp/src/Archive.cpp` (`initialize`), `Archive.h` (`read_resource`, `load_archive`), `templates/cpp/archive.jinja2` (`load_contents`) | `Model/Native/CppArchive.lean` |
| `flatdata-cpp/src/TarReader.cpp`, `MemoryMappedTarFileStorage.h`, `TarArchiveResourceStorage.h` (reading) | `Model/Native/CppTar.lean` |
| `flatdata-cpp/src/Archive.cpp` (`to_lines`, `create_context`, `compute_diff`) | `Model/Native/CppDiff.lean` |
| `flatdata-rs/lib/src/{vector,multivector,storage,filestorage}.rs` (writers; streams that do not fail) | `Model/Native/RustStorage.lean` |
| `flatdata-rs/lib/src/{storage,arrayview,multiarrayview,rawdata}.rs` (readers), `templates/rust/{structure,variadic,index,archive}.jinja2` (getters without invalid values, `open`) | `Model/Native/RustReader.lean` |
| `flatdata-go/flatdata/resource.go`, `templates/go/{structure,vector,instance,rawdata,multivector,archive}.jinja2` (allocations do not fail) | `Model/Native/GoReader.lean` |
| `templates/go/*.jinja2`: `Close`, `GetSizeInBytes`, `ToString`; `go.py:57-60` | `Model/Native/GoText.lean` (sizes do not overflow; `fmt.Sprintf` and `mmap.ReaderAt` by their documentation) |
| `generators/{cpp,rust,go}.py`, `templates/{cpp,rust,go}/structure.jinja2`, `templates/{cpp,rust}/enumeration.jinja2`: names, types, offsets, widths, sizes and values (not: printing, ranges, documentation, archives) | `Model/Gen/NativeClasses.lean` |
| `templates/{cpp,rust}/constant.jinja2`, `templates/{cpp,rust}/structure.jinja2`: which fields are `Tagged`/`Option`, with which constant; `rust.py:44-46` (ASCII letters; the second substitution never matches an identifier) | `Model/Gen/NativeConstants.lean` |
| `templates/rust/{rust,archive,variadic,index}.jinja2`, `rust.py:50-95`, `generators/__init__.py:57-58`: which items are defined in which modules, and what `open` reads; not the bodies of functions, not documentation, not names of the prelude or of the library that are hidden | `Model/Gen/NativeArchives.lean` |
| `templates/rust/{structure,enumeration,archive,variadic,constant}.jinja2`, `rust.py:45-95`: the names that the items define and use; not the bodies of functions, not names from traits | `Model/Gen/NativeNames.lean` |
| `templates/cpp/{cpp,archive,resource,structure,enumeration,constant,namespace}.jinja2`, `cpp.py:48-109`: which items are declared and defined in which namespaces, and what is read and written; not documentation, not the bodies of other functions (`describe`), not members that clash inside of a class | `Model/Gen/CppArchives.lean` |
| comparison, `fill_from`, getters and setters with an invalid value of `templates/{cpp,rust}/structure.jinja2`; `Tagged` members of `internal/{Reader,Writer}.h` | `Model/Native/Members.lean` |
| escaping filters of `generators/{cpp,rust,go,python}.py` | `Model/Gen/Literals.lean` |
| documentation filters of `generators/{cpp,rust,go,python}.py` | `Model/Gen/Documentation.lean` |

### 4.3 Modelling decisions a reader has to trust

* Python integers are `Int`/`Nat`; `bytes`, `bytearray`, `memoryview` and `mmap` are `List (Fin 256)`-like
  byte lists; slices clip as in Python.  Exceptions are values of `Except`; two exceptions are told
  apart only where a caller can.
* Dictionaries are association lists in insertion order (Python ≥ 3.7); `set`s are lists without
  duplicates, and where the iteration order of a set is observable the model or the theorem
  quantifies over it or the property says so.
* Loops whose termination is not syntactically evident take explicit fuel, and a theorem shows that
  enough fuel always exists (`BfsYields`, `DfsYields`, `BuildAst`, `Schema`, `PyModule` are relations
  "some fuel yields this result"; C64 proves totality).
* The file system is a map from names to contents with a log of operations; a crash keeps any prefix
  of the log (and, for C33, any prefix of the last write).  `os.path`, `mmap`, `open` and `tarfile`
  are modelled by their documented effect; permissions, symbolic links, out-of-space errors and
  concurrent writers are not.
* pyparsing is modelled by the combinators the grammar uses (ordered choice, `-` error stop,
  greedy repetition, whitespace skipping, `Keyword`'s following-character test).  Packrat caching and
  error positions are not modelled.  Keyword's preceding-character test matters only after `@optional` and is modelled there.
* jinja2 is modelled by writing out the text the templates produce.  Doc comments are not part of the
  trees (parsed comments are dropped, `doc` attributes are absent): the flatdata templates do not
  print them. The filters that put them into generated sources are modelled on their own (C102).
* Tree nodes do not carry parent pointers; a node is addressed by its path.  `Node.parent`,
  `root`, `path` are functions of that path.
* Compiled code: fixed-width integers are `BitVec`s, a load or store outside of the buffer is `none` (undefined
  behaviour, panic); hosts are little-endian or convert as the sources do; `int` promotion of narrow types is
  replaced by arithmetic on the narrow type (same low bits).  Sizes and offsets do not overflow.

### 4.4 What is not modelled

* The rest of the C++, Rust and Go runtime libraries and of the code emitted for them,
  the CLI modules (`app.py`, `inspector_app`, argument parsing, logging).
* `numpy`/`pandas` beyond the row table built by `to_numpy` (`as_dataframe`, dtype conversion), `repr`.

## 5. Findings

Behaviour of the code at the pinned commit met while proving; items with a theorem are marked with it.

Runtime

* R1 `read_value`: an unaligned unsigned 64-bit field is not masked, a signed 1-bit field is never -1 (`C01_counterexample*`), width 0 unaligned raises ValueError/IndexError; `write_value` of width 0 unaligned raises IndexError.
* R2 `write_value` reduces out-of-range values silently (C04) and its masks use the offset: the first byte is OR-ed with old contents, trailing bits survive only above the offset, so rewriting a field or writing out of order damages neighbours (C03). A 1-bit field stores 1 iff the value equals 1.
* R3 An empty vector, multivector or raw data resource opens as `None` because of `if resource:` (C26); a length ≥ 2^63 raises OverflowError. An empty tar member as schema of an optional resource counts as absent.
* R4 Multivector: `mv[-1]` is the empty list and `mv[-k]` is bucket `len-k+1` (C16); the index is written in whole bytes but read with `width` bits, so data ≥ 2^width is silently misread for widths that are no multiple of 8 (C15); more than 256 types: OverflowError; for a type listed twice the last index wins; resources `a` (multivector) and `a_index` share a file; an optional multivector with index but without data opens with no data.
* R5 `to_numpy(limit)`: limit < count raises IndexError (and so does `repr` of a slice with more than 100 elements), limit > count leaves rows uninitialised (C19).
* R6 RawData: open-ended slices expose the padding, `slice(None, …)` raises TypeError, `sub_str` without separator returns a single byte, separators can match inside the padding, multi-byte separators advance by one byte only (C17, C18).
* R7 Optional resource with schema but missing data: `len(None)` TypeError. The size header is not compared with the file length; clipped reads yield zeros; an empty file makes `mmap` raise ValueError; a subarchive that is a file raises AttributeError; a directory named `x.schema` raises TypeError; the schema of a multivector index is never checked (C21–C24).
* R8 Builder: schema written and file opened before validation; a failed set can be retried (C30) but `finish` then writes the unframed partial data (`C33_counterexample_finish`); setting a subarchive writes an empty framed file; raw data given as `str` is dropped; an empty iterable of any type is a vector (C35); a multivector's index file is written before its data file; rebuilding over an existing directory can mix old and new resources after a crash; a torn write of at least 16 bytes is accepted by the reader (C33).
* R9 Inspector on tar archives raises AttributeError (`C38_tar_raises`). `Writer._get_archive_name` searches for the word `archive`: a second occurrence anywhere raises RuntimeError, absence yields garbage (C39).

Generator

* G1 Python template: `_<NAME>_SCHEMA` class variables collide for names that differ only in case, so the wrong schema is used; class names collide across namespaces (`a.b.C`, `a.b_C`) and with `…Builder`; class names starting with `__` are mangled; classes named like body variables are shadowed (C60 hypotheses and counterexamples).
* G2 Resolver: renaming collisions raise RuntimeError (`multivector<w, A, .n.A>`); a field named like its enum type resolves to itself.
* G3 Enumerations: width 0 (signed: TypeError, unsigned: accepted); an enum reference with width 0 is accepted silently; a user enumerator `UNKNOWN_VALUE_k` can clash with a generated one; with several bad values the reported error depends on set order.
* G4 Literals with leading zeros make `int(s, 0)` raise ValueError.
* G5 A namespace nested in the path of a definition (`n.S.m`) is inserted below the structure; a structure named `_builtin` receives the index type namespace; a user-defined `n._builtin.multivector.IndexType{w}` is silently used as index type.
* G6 Definitions in namespaces named `_builtin` are left out of schema texts: equal schemas, different layout (`C57_counterexample_builtin`).
* G7 Namespace components may start with a digit, then the printed schema does not parse. Nested namespaces printed by the flatdata generator are not accepted by the grammar (`C56_nested`). At most one comment is allowed between two namespaces.
* G8 An archive with exactly one resource and that resource have the same schema text. Resource schemas with explicit references cannot be rebuilt on their own.
* G9 An explicit reference whose destination is named like the structure raises SymbolRedefinition; `x : archive;` parses as an object of type `archive`; `@const`/`@optional` on an enum-typed field is always InvalidConstReference; structures with `@range` may only be used in vectors.
* G10 `multivector<0, …>` gets an index type with a 64-bit field.
* G11 Constants are part of archive schemas even if unreferenced, unlike the documentation of resource schemas (C55).
* G12 `@optional@explicit_reference(…)` without a space is rejected, unlike `@optional(N)@const(C)` (`Keyword` looks at the previous character; `rejected_at`).
* G13 Rust/C++ `snake_to_upper_camel_case` maps `a_b` and `A_B` to one name; Rust `_camel_to_snake_case` contains the literal pattern `(A-Z)`.
* G14 The schema stored beside a resource lists the constants it needs in source order of the decorators, while the definitions themselves are printed with the decorators in a fixed order: two schemas that differ only in writing `@const(C) @optional(N)` or `@optional(N) @const(C)` have equal archive schemas, and still refuse each other's data (`C68_counterexample_order`).
* G15 The empty text is an empty schema, but a text of white space or comments only is a parse error (`C69_counterexample_empty`).
* G16 Go: a structure with an enumeration field makes the generator raise `KeyError` (`C89_go`).
* G17 Rust: an enumeration over `bool` becomes `#[repr(bool)]`, and an enumeration in a namespace `super` gets a path that means something else; neither compiles (`RustNameable` in C89). A `@range` on a field of enumeration type passes the schema's internal name (`@@n@E`) to the macro (structure.jinja2:112).
* G18 Names in Rust: `type` is escaped to `type_`, which collides with a field `type_` (`C99_counterexample_escape`); a field `x` beside a field `set_x` (`C99_counterexample_setter`), fields `new`, `as_bytes`, `fill_from` (`C99_counterexample_function`), the keywords `async`, `await`, `dyn`, `try`, `Self` (`C99_counterexample_async`); names of namespaces, structures and enumerations are not escaped. (Read, not modelled: C++ escapes no keywords. Go: `a_b` and `aB` get the same getter.)

Compiled runtimes

* N1 C++: `Writer` masks signed integers only; a negative enumeration value or a too large unsigned value is OR-ed into the following bits (`C71_counterexample_enum`, `C71_counterexample_overflow`, exact effect in `C71_cpp_write_exact`). The reader needs up to seven bytes of padding (`C70_padding_needed`).
* N2 Rust: for fields of nine bytes the reader adds the byte offset twice (bytereader.rs:64) and the writer omits it (bytewriter.rs:63), so such fields behind the first byte are read without their last byte, possibly outside of the buffer, and written into the wrong byte (`C72_counterexample`, `C72_ninth_byte_ignored`, `C73_counterexample`, `C73_ninth_byte_lost`).
* N3 Go: a signed field inside one byte but not at its begin is not sign-extended (`C74_counterexample`); `Read` loads one byte past the field (`C74_padding_needed`).
* N4 Signed one-bit fields: Python, C++ and Rust read 1, Go -1 if the field begins a byte; Python stores 0 for -1, C++ and Rust 1 (`C76_counterexample`).
* N5 C++: `Vector::grow` after `pop_back` (or a smaller `resize_element_count`) returns an element that is not zero but shows bits of a removed one (`C78_counterexample_grow`); C78 is therefore proved for histories without that.
* N6 C++: `set_...` of an empty `Vector` of structures with a `@range` writes one element that does not exist, from the padding or from memory behind the vector (`C78_counterexample_empty_range`).
* N7 (read, not modelled) `create_context` in `flatdata-cpp/src/Archive.cpp` writes `result_mask[diff.size()]`, one past the end; `Writer<Tagged<...>>::operator=(optional)` has no return statement; generated `operator<` of structures is a product order, not a strict weak order; an optional resource with a wrong schema is silently absent in C++ while Python raises.
* N8 Rust: `Vector` of structures with a `@range` derefs to a slice that includes its spare last element, so `v[v.len()]` is accepted and assignments to it change the stored sentinel (`C81_counterexample_spare`).
* N9 An empty vector of structures with a `@range` written by Python, or by the incremental builder of C++, cannot be opened in Rust (`UnexpectedDataSize`); Rust itself stores one element of zeros for it (`C83_counterexample_empty_range`).
* N10 Rust: the end of a range of a nine-byte-spanning field is read wrongly even if the field begins in the first byte of the structure, because it is read at an offset behind it (`C82_counterexample_range`).
* N11 Rust: `from_bytes_slice` contains an `assert_eq!` before the return of the error, so a too short instance file makes `open` panic (`C84_counterexample_panic`); a too long one is accepted.
* N12 (read, not modelled) `templates/rust/structure.jinja2:115` has an unbalanced parenthesis for a field with both `@range` and `@optional`; it is never written, because `_check_ranges` rejects such fields (`OptionalRange`).
* N13 Rust reports broken files of an optional resource as an error, C++ shows the resource as absent (`C86_counterexample_broken_optional`); C++ checks neither that the size of a vector is a multiple of the structure nor that an instance is long enough (C85).
* N14 Go: a multivector has one element object per type, so all elements of the same type that `Get` returns, in one or in several calls, show the last one (`C87_counterexample_same_type`); `GetSize` counts the sentinel (`C87_counterexample_size`).
* N15 Go looks for the files of an archive resource in a directory in lower case (`C88_counterexample_upper_case`), and calls a function named after the resource instead of the archive.
* N16 Go checks neither the size in a file nor the schema of the index of a multivector nor the signature of an archive, and ignores missing mandatory resources (`C88_counterexample_unchecked`, `C88_go_empty_directory`).
* N17 Go does not check indices: negative ones show the size of the resource or panic, large ones show the padding or panic (`C87_counterexample_index`).
* N18 Signed enumerations of one bit have the values 0 and -1, but the bit 1 is read as 1: undefined behaviour in Rust (`transmute` of a value that is no discriminant), an unknown value in C++ (`C90_counterexample`).
* N19 C++ `==` compares bytes, Rust `==` compares fields: structures that differ only in unused bits are equal in Rust and different in C++ (`C91_counterexample_unused_bits`).
* N20 C++ `<` of structures holds if *every* field is less; it is not a strict weak order, so that sorting by it is undefined behaviour (`C91_counterexample_order`). For structures with optional fields it does not compile (read, modelled as undefined).
* N21 A signed one-bit field with the constant -1 is accepted and never reads as invalid (`C92_counterexample_one_bit`).
* N22 (read, not modelled) `Writer< Tagged >::operator=( boost::optional )` does not compile when used (no conversion from `boost::optional< T >` to `T`) and has no `return`.
* N23 Rust declares the constant `noValue` as `NO_VALUE`, but optional fields refer to it as `noValue`: the code does not compile (`C93_rust_lower_case`, `C93_counterexample_lower_case`). `fooBar` and `FOO_BAR` become the same constant (`C93_counterexample_same_name`).
* N24 Constants of type `bool` are declared as `pub const X: bool = 1;` in Rust, which does not compile (`C93_counterexample_bool`).
* N25 The C++ tar reader does not check that a file fits the image when it skips it, and the offset wraps: a header with the size 2^64 - 512 makes it read the same block, and append an entry, for ever (`C95_counterexample_endless`).
* N26 The C++ tar reader does not reset a long name at a directory: a directory with a name of more than 100 bytes gives its name to the next file (`C94_counterexample_directory`).
* N27 The C++ tar reader ignores the `prefix` field of POSIX headers: `tar --format=ustar` with paths of more than 100 bytes gives wrong names (`C94_counterexample_prefix`). Pax headers (the default of `tar --format=posix` and of Python's `tarfile`) for long names are rejected.
* N28 Of several members with the same name the C++ reader finds the first, Python (`dict`) and Rust (`HashMap`), as well as unpacking, the last (`C94_counterexample_twice`).
* N29 Numbers that end with a blank, which POSIX allows and old tars write, are rejected in C++ (`C94_counterexample_blank`).
* N30 (read, not modelled) A truncated tar: C++ shortens the last file, Python's slice does so too, Rust panics when the resource is read (the range is not checked).
* N31 C++ `create_context` writes `result_mask[ diff.size( ) ]`, outside of the vector (`C96_counterexample_write`); since the index of the first loop is off by one, there are two instead of three lines of context after a change, and none if the last line follows (`C96_counterexample_last`).
* N32 Schemas that differ only by a newline at the end are a mismatch with an empty explanation (`C96_counterexample_newline`).
* N33 (read, not modelled) `compute_diff` reads the stored schema up to a zero byte, which the file does not have: it reads outside of the mapped file if its size is a multiple of the page size, and goes on into the next member of a tar file if its size is a multiple of 512.
* N34 If an optional resource has a schema but no data file (what an interrupted builder leaves), Rust opens the archive without it, and Python raises `TypeError` (`C97_counterexample_schema_only`); the same for a sub-archive with a directory, but without signature.
* N35 Names that are different in the schema and the same in Rust, so that the generated code does not compile: archives `BigGraph` and `big_graph` (modules of schemas, `C98_counterexample_archives`), resources `a` and `A` (`C98_counterexample_resources`).
* N36 A multivector gets a type with its name in camel case in the namespace: `point : multivector< 8, Point >` does not compile in Rust (`C98_counterexample_multivector`), nor do two archives of a namespace that have a multivector with the same name (`C98_counterexample_two_archives`).
* N37 A multivector of structures with the same name from different namespaces has two variants with this name in Rust (`C98_counterexample_elements`).
* N38 `is_multivector_index` searches for the text `_builtin.multivector`: structures in a namespace `x_builtin.multivector` are taken for index types, left out of the elements of multivectors, and `IndexStruct` is implemented for them with a range they do not have (`C98_counterexample_builtin`).
* N39 Ranges: two fields of a structure may name the same range, which defines a function twice in Rust (`C99_counterexample_ranges`). A range of a field of an enumeration type is read with the mangled name of the enumeration type for a type (`C99_counterexample_enum_range`).
* N40 Further accepted schemas whose Rust code does not compile: resources called like keywords, which are not escaped (`C99_counterexample_resource`), or `storage` or `extend`, which hide variables of `open` (`C99_counterexample_storage`), or like a constant (`C99_counterexample_pattern`); an archive `Type`, whose schemas are in a module `type` (`C99_counterexample_archive`); a structure `Result` (`C99_counterexample_result`); enumeration values `A_B` and `A__B` (`C99_counterexample_values`) and `SELF` (`C99_counterexample_self`).
* N41 Names that are different in the schema and the same in C++: structures `S` and `SMutator` (`C100_counterexample_mutator`), an archive `A` and a structure `ABuilder` (`C100_counterexample_builder`), a structure `A__r` beside an archive `A` with a resource `r` (`C100_counterexample_schema`), a structure or namespace `internal` (`C100_counterexample_internal`).
* N42 Explicit references to an instance: the generated C++ code calls `size( )` of a structure and does not compile (`C100_counterexample_instance`). Explicit references of 63 bits: the limit 2^63 is too large for an integer literal (`C100_counterexample_wide`). Limits of sub-archives are not checked.
* N43 Comments are allowed only where the grammar expects them: a comment after the last value of an enumeration or the last field of a structure, two comments before a field and two comments after a namespace are parse errors (`C101_sample_rejects`).
* N44 In an explicit reference the names before the field are joined, whatever is between them: `@explicit_reference( S T.f, v )` is the field `f` of a type `ST` (`C101_sample_joined`). A dot directly after `namespace` and `archive` belongs to the name: `namespace.n { }` is accepted, and so is a resource of type `archive`, as an instance (`C101_sample_together`).
* N45 Comments of declarations that are not comments in the generated code. Rust: a line of a `/* … */` comment that does not begin with `*` is emitted as code (`C102_rust_unstarred`), a comment `//! …` becomes an inner documentation comment, which does not compile (`C102_rust_inner`); `//` comments of a schema are emitted as ordinary comments, not as documentation. C++: a backslash at the end of a line of a `/* … */` comment joins two lines for the compiler but not for the schema parser, which can end the comment early (`C102_cpp_spliced`).
* N46 A namespace below a constant (`namespace n { const u8 K = 1; } namespace n.K.m { archive A … }`) is accepted by the tree builder; if no field refers to the constant, every archive refers to it, and an archive in that namespace is rejected as circular (`constantCycle` in `Props/Gen/Accepted.lean`).
* N47 The engine looks for the name of the outermost namespace, an underscore and the archive name. An archive in a nested namespace (`namespace n.m { archive R … }`, class `n_m_R`) can therefore be opened neither by the inspector nor by the JSON writer, nor can an archive whose stored schema has definitions in two outermost namespaces (`C104_archive_class`, `C104_nested`). The name `m_R` in place of `R` would find the class, but no signature file is called that.
* N48 The structure and the field of an explicit reference are looked up separately. With a namespace in the path of an archive (`namespace n.A.m`, where `n.A` is an archive) the compiler accepts `@explicit_reference(m.S.f, r)` with the structure `n.A.m.S` and the field `n.m.S.f` (`C105_counterexample`).
* N49 Two kinds of accepted sources have archives whose stored schema the generator rejects, so that the inspector cannot open them: explicit references (or groups of bound resources) that refer to a resource of an archive which is not part of the schema (`C106_counterexample_outside`), and two explicit references of one resource that are the same with full paths (`C106_counterexample_twice`).
* N50 Compiling a stored schema and printing it does not always give the stored text: `@optional` before `@const` (`C106_unstable_decorations`), and constants in several namespaces (`C106_unstable_constants`). Because schemas are compared literally when a directory is opened, the inspector then refuses the directory.
* N51 Drawings of groups that list groups: edges of the inner group start at tables that are not drawn (`C108_counterexample_nested`); a group that lists itself is accepted by the compiler but the dot generator fails with a `RecursionError` (`C108_counterexample_self`).
* N52 Identifiers in drawings join names with underscores, so that `a.b_c` and `a.b.c` are one subgraph (`C108_counterexample_ids`); two resources of one group with the same type share one node.
* N53 The label of a type in a drawing cuts off the namespace of the structure as a text, without looking for the dot: in the namespace `n` the type `nx.F` is labelled `x.F` (`C108_counterexample_labels`).
* N54 Go: an archive with an absent optional resource can be opened, but `ToString` panics (`C109_counterexample_absent`); `Close` leaves the index of every multivector mapped (`C109_counterexample_index`).
* N55 Go: `to_go_case` fails with an `IndexError` for the name `_`, which the grammar allows, and makes equal names of different ones, such as `aBc` and `a_bc` (`C109_counterexample_names`).
* N56 C++: the difference of two iterators divides the negative number of bytes as an unsigned one, so that `begin( ) - end( )` is wrong for structures of more than one byte (`C110_difference`, `C110_counterexample_difference`); `skip` and `skip_last` of more elements than there are give views of almost 2^64 elements (`C110_counterexample_skip`).
* N57 Raw data that ends with a string without a zero byte: Rust and C++ give the string, Python's `sub_str` its first letter, or `UnicodeDecodeError` (`C111_counterexample_last`).
