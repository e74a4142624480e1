{
 "C18": {
  "status": "proved",
  "note": "sub_str for arbitrary separators; sub_str_array and sub_str_list for one-byte separators (the documented use)."
 },
 "C01": {
  "status": "proved",
  "note": "C01_read_value gives the returned value in every case; C01_read_value_iff when it is the stored integer; the two exceptions are defects of the code (counterexamples are theorems)."
 },
 "C02": {
  "status": "proved",
  "note": "All integers, not only in-range ones; the single exception is a defect (C02_counterexample_i1)."
 },
 "C06": {
  "status": "proved",
  "note": "Exact: value shown by every field for every dictionary; the two exceptions are those of C01."
 },
 "C15": {
  "status": "proved",
  "note": "The naive statement (never silently corrupted) is false for widths that are not a multiple of 8: C15_truncated_index, C15_counterexample_narrow_index."
 },
 "C35": {
  "status": "proved",
  "note": "The naive statement (stored or raises) is false; the two exceptions are exact and shown to happen."
 },
 "C67": {
  "note": "Assumes besides C60: nothing declared in a namespace `_builtin`, fields of at least one bit, at most 256 structures per multivector, and no resource named like the index file of a multivector (`NoIndexClash`; two such resources write the same file)."
 },
 "C68": {
  "note": "Assumes simple schemas as in C57 (`Flat`, `NoBuiltin`) and nothing declared in a namespace `_builtin`. Whether a directory with the same meaning is accepted at all is not claimed: `C68_counterexample_order` (finding G14) shows two schemas differing only in the order of decorators that refuse each other's data."
 },
 "C78": {
  "note": "Values in the range of their fields, no -1 in one-bit fields (finding N1, N4). For `Vector` no element is added after one was removed: finding N5 (`C78_counterexample_grow`) shows the claim is false otherwise. Streams do not fail."
 },
 "C79": {
  "note": "Files smaller than 2^64 bytes; C++ member types as generated (`CppTypes`: wide enough, signedness of the field)."
 },
 "C80": {
  "note": "What Python shows is stated as in C12-C14 (`ReadsAs`, with its two documented defects), what C++ shows as in C79."
 },
 "C81": {
  "note": "Structures without nine-byte fields behind the first byte (`RustStruct`, finding N2); streams do not fail; sizes below 2^64. `C81_counterexample_spare` is finding N8."
 },
 "C82": {
  "note": "Rust types as generated (`RustTypes`), `RustStruct`; ranges only for fields that do not span nine bytes (`C82_counterexample_range`, finding N10)."
 },
 "C83": {
  "note": "What Python shows is stated as in C12-C14, C++ as in C79, Rust as in C82. `C83_counterexample_empty_range` is finding N9."
 },
 "C84": {
  "note": "Files smaller than 2^64 bytes; the specification is the inductive relation `OpensTo` (and `Panics`). `C84_counterexample_panic` is finding N11."
 },
 "C85": {
  "note": "Files smaller than 2^64 bytes; specifications `CppFine` and `CppOpensTo`. C++ takes an empty schema file for a missing one."
 },
 "C86": {
  "note": "Schemas are not empty. The converse is false: `C86_counterexample_broken_optional`."
 },
 "C87": {
  "note": "Go types as generated (`GoTypes`); files smaller than 2^61 bytes. `C87_counterexample_same_type`, `_size`, `_index` are findings N14, N17."
 },
 "C88": {
  "note": "The generated code is correct Go only if the resource and the archive it refers to have the same name, which is assumed. Counterexamples are findings N15 and N16."
 },
 "C89": {
  "note": "`Spec/NativeClasses.lean` says how compilers look up types. Names of members and enumerators are not checked for collisions (findings G16-G18). `Flat` as in C55; `RustNameable` excludes `repr(bool)` and a namespace `super`."
 },
 "C90": {
  "note": "`C90_counterexample` is finding N18: undefined behaviour in Rust for signed enumerations of one bit."
 },
 "C91": {
  "note": "Fields that span nine bytes (finding of C72) are excluded for Rust. `C91_counterexample_*` are findings N19, N20."
 },
 "C92": {
  "note": "`C92_counterexample_one_bit` is finding N21."
 },
 "C93": {
  "note": "`Flat` excludes namespaces below definitions (finding of C89). Rust: `RustConstsNameable` excludes lower-case letters, `bool` and a namespace `super`; `C93_rust_lower_case` and `C93_counterexample_*` are findings N23, N24. `C93_*_slots`, `C93_consecutive` connect the generated members with C91, C92."
 },
 "C94": {
  "note": "`TarImage` leaves out pax headers, links, sparse files and the POSIX prefix, which the reader rejects or ignores; long names of directories (finding N26). `C94_counterexample_*`: N26-N29. The memory map itself and `std::unordered_map` are trusted."
 },
 "C95": {
  "note": "`size_t` has 64 bits and additions wrap. `C95_counterexample_endless` is finding N25: one block of 512 bytes on which the loop never ends."
 },
 "C96": {
  "note": "The write outside of `result_mask` (finding N31) has no effect in the model. That the stored schema ends with a zero byte is assumed (finding N33)."
 },
 "C97": {
  "note": "`FilesBelow` says that Rust sees the files below the directory by their paths; `filesBelow_ok`: every directory can be seen like this. `SameDecls` relates the declarations in Rust and Python. `C97_counterexample_schema_only` is finding N34; the converse fails (`C97_counterexample_truncated`)."
 },
 "C98": {
  "note": "`Spec/NativeArchives.lean` says what a Rust compiler makes of the items of the program (modules, paths, constants with raw strings) and what it is to read in terms of the schema. `C98_same_archives` combines this with C60 and C97 (multivectors of width 0 are excluded: finding G10). The counterexamples are findings N35-N38. That structures with ranges are used in vectors only, which the Rust code needs, follows from C53."
 },
 "C99": {
  "note": "`Spec/NativeNames.lean` says what a compiler demands and what the schema has to avoid. Each condition that is not a matter of taste has a counterexample: an accepted schema that violates it and whose generated code is rejected (findings G18, N39, N40)."
 },
 "C100": {
  "note": "`Spec/CppArchives.lean` says what a C++ compiler makes of the items of the header and what it demands; what is to be read is the same relation as in C98. `C100_same_archives` combines this with C98 and C86. The counterexamples are findings N41 and N42."
 },
 "C101": {
  "note": "`Spec/Syntax.lean` is the grammar. `C101_sample_rules` derives a schema from the rules without the parser, `C101_sample_accepts` and `C101_sample_rejects` evaluate the parser. Findings N43 and N44. C69 is a corollary for texts that are accepted."
 },
 "C102": {
  "note": "`Spec/Documentation.lean` says what a compiler passes over. `C102_comment`: what the parser reads as a comment is a `DocText`. The conditions for C++ and Rust are needed: `C102_cpp_spliced`, `C102_rust_unstarred`, `C102_rust_inner` (finding N45)."
 },
 "C103": {
  "note": "`Spec/WellFormed.lean` has the conditions in terms of the tree with resolved names, before anything is computed. `C103_names_iff` is the part about names, `C103_accepted_iff` the rest, `C103_accepted_iff_names` both. When definitions can be merged is the subject of C47."
 },
 "C104": {
  "note": "This instantiates the parameter `engine` of C38 with the modelled compiler and Python generator (C60). Two outermost namespaces in the closure of an archive make the stored schema ambiguous for the inspector; archives in nested namespaces are not found (`C104_nested`, N47)."
 },
 "C105": {
  "note": "`C105_counterexample` is an accepted source with a namespace in the path of an archive, where the field belongs to another structure (N48)."
 },
 "C106": {
  "note": "`C106_compiles`, `C106_same` and `C106_only` together. What is excluded is really rejected: `C106_counterexample_outside`, `C106_counterexample_twice`, and `C56_nested` for nested namespaces. Equality of the texts themselves is not claimed and false: `C106_unstable_decorations`, `C106_unstable_constants` (N50)."
 },
 "C107": {
  "note": "`C107_definitions`, `C107_fixpoint`, `C107_resources`, `C107_class` and `C107_inspector` together. `Settled` excludes what changes a text: `C106_unstable_decorations`, `C106_unstable_constants` (N50); with at most one constant only the order of decorations remains (`settled_single`). `C107_witness_inspector` is a directory written by a generated builder."
 },
 "C108": {
  "note": "`C108_drawing` and `C108_no_drawing`. What the conditions exclude: `C108_counterexample_nested`, `C108_counterexample_self` (N51). The drawing is the structure of the graph description, not its text; identifiers need not be unique (`C108_counterexample_ids`, N52)."
 },
 "C109": {
  "note": "`C109_size`, `C109_close`, `C109_text`, `C109_structure` together; `C109_names`: the hypotheses on names hold for the structures of every accepted schema. `GoLoaded` says which objects `Open` leaves. Findings N54, N55."
 },
 "C110": {
  "note": "The theorems together. Slices of slices: `C110_slice` gives the hypothesis of all theorems for the slice. Wrong outside of the bounds and for negative differences: `C110_counterexample_difference`, `C110_counterexample_skip` (N56)."
 },
 "C111": {
  "note": "`C111_table`, `C111_array`, `C111_last` together; `C111_counterexample_last` (N57)."
 }
}