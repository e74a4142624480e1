{"id": "C01", "title": "Reading a field returns the integer stored in its bits", "statement": "For a field of width w at bit offset o inside a buffer, read_value returns the integer whose k-th binary digit is bit o+k of the buffer (bit i of a buffer is bit i mod 8 of byte i div 8), interpreted in two's complement when the field is signed; with exactly two exceptions: a signed 1-bit field reads 0 or 1 (never -1), and an unsigned 64-bit field at an unaligned offset returns all 72 - o mod 8 bits up to the end of its last byte, so it is right iff the bits behind it in that byte are zero. Width 0 reads 0 at aligned offsets and raises otherwise.", "quantifier": "all byte buffers, all offsets, all widths 1..64, both signednesses with the field inside the buffer", "why_tests_cant": "256^n buffers times 64 widths times unbounded offsets; the existing 1800 generated cases all use a buffer with a single set bit and therefore miss the unaligned 64-bit defect", "anchors": ["flatdata-py/flatdata/lib/data_access.py:read_value"]}
{"id": "C02", "title": "Writing then reading a field returns the written value", "statement": "Any integer written at offset o into a buffer whose bits from o to the end of the field's last byte are still zero is read back as its residue modulo 2^w in the range of the field (1-bit fields: 1 iff the value is 1). So an in-range value is read back unchanged, with exactly one exception: -1 in a signed 1-bit field reads as 0.", "quantifier": "all buffers, offsets, widths 1..64, signednesses and all integers", "why_tests_cant": "the product of values, offsets and prior buffer contents is infinite", "anchors": ["flatdata-py/flatdata/lib/data_access.py:read_value", "flatdata-py/flatdata/lib/data_access.py:write_value"]}
{"id": "C03", "title": "Effect of a write on every bit of the buffer", "statement": "A write never changes the buffer length, never changes a bit before the field or beyond the last byte the field touches; the bits of the field receive the value's two's complement digits (OR-ed with the previous bits of the first byte if the field starts at bit 8 or later). Hence fields written in increasing offset order never damage each other; rewriting a field, or writing fields out of order, may.", "quantifier": "all buffers, offsets, widths 1..64, values", "why_tests_cant": "needs every prior buffer content; unit tests always start from zero buffers", "anchors": ["flatdata-py/flatdata/lib/data_access.py:write_value"]}
{"id": "C04", "title": "Out-of-range values are reduced modulo 2^width", "statement": "write_value accepts every integer; reading back gives the residue modulo 2^w in the field's range, for widths 2..64; for width 1 the stored bit is 1 iff the value equals 1.", "quantifier": "all integers, all widths and offsets", "why_tests_cant": "unbounded integers", "anchors": ["flatdata-py/flatdata/lib/data_access.py:write_value"]}
{"id": "C05", "title": "Field access inside the buffer never fails, and depends only on the field's own bytes", "statement": "If the field lies inside the buffer and 1 <= w <= 64, read_value and write_value raise nothing; a read result depends only on the bytes that the field overlaps. write_value raises for w > 64.", "quantifier": "all buffers, offsets, widths", "why_tests_cant": "absence of failure over all offsets and widths", "anchors": ["flatdata-py/flatdata/lib/data_access.py:read_value", "flatdata-py/flatdata/lib/data_access.py:write_value"]}
{"id": "C06", "title": "A structure survives serialisation", "statement": "For every structure type with distinct field names and widths 1..64 and every dictionary that has all its fields, serialising the dictionary as the builder does succeeds, gives size_in_bytes bytes holding the fields' digits one after the other, and reading every field of the structure anywhere in a larger buffer gives back exactly the stored value; an in-range value is shown unchanged except in exactly two cases: -1 in a signed 1-bit field, and an unaligned unsigned 64-bit field with a set bit behind it in its last byte (which is then visible in its value).", "quantifier": "all structure layouts, all integers as field values, all positions in all buffers", "why_tests_cant": "all layouts and values; interactions of neighbouring fields within shared bytes", "anchors": ["flatdata-py/flatdata/lib/archive_builder.py:__set_instance", "flatdata-py/flatdata/lib/structure.py:Structure", "flatdata-generator/flatdata/generator/tree/builder.py:_compute_structure_sizes"]}
{"id": "C07", "title": "Structure layout is gapless and non-overlapping", "statement": "The generator assigns each field the sum of the widths of its predecessors as offset; fields are pairwise disjoint, cover [0, size_in_bits) and size_in_bytes is the least number of bytes containing all of them.", "quantifier": "all structures", "why_tests_cant": "all field lists", "anchors": ["flatdata-generator/flatdata/generator/tree/builder.py:_compute_structure_sizes", "flatdata-generator/flatdata/generator/tree/nodes/trivial/structure.py"]}
{"id": "C08", "title": "Opening a vector: accepted buffers and reported length", "statement": "Opening a vector raises CorruptResourceError iff the resource is shorter than 16 bytes, fails the malformed-vector assertion iff the stored 64-bit size is not a multiple of the element size, and otherwise its length is stored size / element size.", "quantifier": "all byte strings, all element sizes > 0", "why_tests_cant": "all byte strings", "anchors": ["flatdata-py/flatdata/lib/resources.py:ResourceBase.__init__", "flatdata-py/flatdata/lib/resources.py:Vector.__init__"]}
{"id": "C09", "title": "Vector indexing follows Python sequence indexing", "statement": "v[i] is the element stored at byte 8 + i*element_size for 0 <= i < len, v[i] = v[i+len] for -len <= i < 0, and IndexError for every other integer.", "quantifier": "all vectors, all integers i", "why_tests_cant": "unbounded indices", "anchors": ["flatdata-py/flatdata/lib/resources.py:Vector.__getitem__", "flatdata-py/flatdata/lib/resources.py:ResourceBase._item_offset"]}
{"id": "C10", "title": "Vector and multivector slices agree with Python list slicing", "statement": "Iterating v[a:b:s] yields exactly the elements Python's list slicing yields on the list of all elements, for all optional start, stop and non-zero step, never raises, and raises ValueError for step 0.", "quantifier": "all lengths, all optional integers start, stop, step", "why_tests_cant": "unbounded triple of integers", "anchors": ["flatdata-py/flatdata/lib/resources.py:_VectorSlice.__iter__", "flatdata-py/flatdata/lib/resources.py:_MultivectorSlice.__iter__"]}
{"id": "C11", "title": "Iterating a container visits every element once in order", "statement": "list(v) has length len(v) and its i-th element is v[i], for vectors, multivectors and instances; the column access v.field yields the field of each element in order.", "quantifier": "all containers", "why_tests_cant": "all sizes and contents", "anchors": ["flatdata-py/flatdata/lib/resources.py:Vector.__iter__", "flatdata-py/flatdata/lib/resources.py:Multivector.__iter__", "flatdata-py/flatdata/lib/resources.py:Vector.__getattr__"]}
{"id": "C12", "title": "Vector write/read round trip", "statement": "If the builder writes a list of dictionaries as a vector resource and the file is opened as a vector of the same type, its length is the length of the list and element i reads back dictionary i (in the exact sense of C06).", "quantifier": "all structure types, all lists of dictionaries with the declared fields and any integers, all earlier builder histories", "why_tests_cant": "unbounded lists", "anchors": ["flatdata-py/flatdata/lib/archive_builder.py:__set_vector", "flatdata-py/flatdata/lib/resources.py:Vector"]}
{"id": "C13", "title": "Instance write/read round trip", "statement": "Same for single-structure resources; the instance has length 1, index 0 and -1 and iteration address the structure, attribute access on the instance reads its fields, and any other index raises IndexError.", "quantifier": "all structure types and values", "why_tests_cant": "all values", "anchors": ["flatdata-py/flatdata/lib/archive_builder.py:__set_instance", "flatdata-py/flatdata/lib/resources.py:Instance"]}
{"id": "C14", "title": "Multivector write/read round trip", "statement": "If the builder writes a list of buckets (each a list of typed dictionaries) whose data the index width can address, and the two files are opened as a multivector of the same types, it has as many buckets, and bucket i lists exactly the elements of input bucket i, in order, with their types and values (in the exact sense of C06).", "quantifier": "all lists of typed structure types (<= 256), all bucket lists whose offsets fit the index width", "why_tests_cant": "unbounded buckets; heterogeneous sizes", "anchors": ["flatdata-py/flatdata/lib/archive_builder.py:__set_multivector", "flatdata-py/flatdata/lib/archive_builder.py:IndexWriter", "flatdata-py/flatdata/lib/resources.py:Multivector"]}
{"id": "C15", "title": "When the data of a multivector outgrows its index", "statement": "Writing a multivector raises OverflowError iff its size does not fit the whole bytes of the index (256^ceil(width/8) or more bytes); then the resource is not recorded and neither of its files opens. Otherwise writing succeeds; if the size is below 2^width every bucket reads back; if not (only possible for widths that are not a multiple of 8) the corruption is silent: the end of the last bucket reads as the size modulo 2^width.", "quantifier": "all index widths 1..64 and all data sizes", "why_tests_cant": "needs data sizes near 2^width", "anchors": ["flatdata-py/flatdata/lib/archive_builder.py:IndexWriter.add", "flatdata-generator/flatdata/generator/tree/nodes/resources/multivector.py"]}
{"id": "C16", "title": "Multivector indexing outside [0, len)", "statement": "mv[i] raises IndexError for i >= len; negative indices are not Python-like: mv[-1] is [] for a non-empty well-formed multivector and mv[-k] is bucket len-k+1.", "quantifier": "all multivectors, all integers", "why_tests_cant": "all indices", "anchors": ["flatdata-py/flatdata/lib/resources.py:Multivector.__getitem__"]}
{"id": "C17", "title": "Raw data round trip and slicing", "statement": "Raw data written as bytes is read back: len(r) is the number of bytes, r[i] is byte i and r[a:b] for 0 <= a <= b <= len is the same slice of the written bytes. Open-ended slices r[a:] additionally expose the 8 padding bytes.", "quantifier": "all byte strings, all indices", "why_tests_cant": "all byte strings", "anchors": ["flatdata-py/flatdata/lib/resources.py:RawData", "flatdata-py/flatdata/lib/archive_builder.py:set"]}
{"id": "C18", "title": "Separator-based string access", "statement": "sub_str(i) returns the bytes from i up to the first separator at or after i; sub_str_array(i, n) returns the first n separator-terminated strings from i; sub_str_list(i) returns the separator-terminated strings up to the list terminator.", "quantifier": "all raw data, all indices", "why_tests_cant": "all byte contents and separator placements", "anchors": ["flatdata-py/flatdata/lib/resources.py:RawData.sub_str", "flatdata-py/flatdata/lib/resources.py:RawData.sub_str_list", "flatdata-py/flatdata/lib/resources.py:RawData.sub_str_array"]}
{"id": "C19", "title": "Bulk export of a slice", "statement": "to_numpy() of a slice has one row per selected element, in order, equal to the element's fields. With a limit smaller than the selection it fails with IndexError: printing a slice of more than 100 elements always raises.", "quantifier": "all vectors, all slices, all limits", "why_tests_cant": "all sizes, sizes over 100 in particular", "anchors": ["flatdata-py/flatdata/lib/resources.py:_VectorSlice.to_numpy", "flatdata-py/flatdata/lib/resources.py:_VectorSlice.__repr__"]}
{"id": "C20", "title": "Every written resource has the documented binary frame", "statement": "Every resource file written by the builder is the little-endian 64-bit payload size, the payload, and 8 zero bytes; in particular it can always be opened (>= 16 bytes).", "quantifier": "all archives, all resources, all values", "why_tests_cant": "all payloads", "anchors": ["flatdata-py/flatdata/lib/resource_storage.py:_Resource.add_size", "flatdata-py/flatdata/lib/resource_storage.py:_Resource.add_padding", "flatdata-py/flatdata/lib/archive_builder.py:set"]}
{"id": "C21", "title": "Truncated or foreign resource bytes", "statement": "A resource shorter than 16 bytes is always rejected on opening. A longer one is accepted even if it is shorter than its own size header: element access then fails or silently yields values built from the available bytes only.", "quantifier": "all byte strings", "why_tests_cant": "all truncation points", "anchors": ["flatdata-py/flatdata/lib/resources.py:ResourceBase.__init__", "flatdata-py/flatdata/lib/data_access.py:read_value"]}
{"id": "C22", "title": "An archive opens exactly when all required resources are present and all present schemas match", "statement": "Opening succeeds iff the signature and every non-optional resource and its schema exist and are well-formed, and every schema that is present equals the expected schema byte for byte, recursively for sub-archives.", "quantifier": "all archive types, all directory contents", "why_tests_cant": "all combinations of missing, corrupt and mismatching files", "anchors": ["flatdata-py/flatdata/lib/archive.py:Archive.__init__", "flatdata-py/flatdata/lib/archive.py:Archive._open_resource", "flatdata-py/flatdata/lib/archive.py:Archive._schema_validated_resource_signature"]}
{"id": "C23", "title": "A schema mismatch is always reported", "statement": "If the stored schema of a resource (optional or not) differs from the expected one, opening raises; with all other resources intact the error is SchemaMismatchError (or a decoding error if the stored text is not UTF-8).", "quantifier": "all stored schema byte strings", "why_tests_cant": "all byte strings different from the expected schema", "anchors": ["flatdata-py/flatdata/lib/archive.py:Archive._check_non_subarchive_schema"]}
{"id": "C24", "title": "A missing required resource is always reported; a missing optional one reads as None", "statement": "If the schema or the data of a required resource is absent, opening raises MissingResourceError. If both are absent for an optional resource, opening continues and the attribute is None.", "quantifier": "all archive types, all subsets of present resources", "why_tests_cant": "exponentially many subsets", "anchors": ["flatdata-py/flatdata/lib/archive.py:Archive._schema_validated_resource_signature", "flatdata-py/flatdata/lib/file_resource_storage.py:FileResourceStorage.get"]}
{"id": "C25", "title": "Attribute access on an open archive is stable", "statement": "After opening, every resource attribute returns the resource loaded at opening time without consulting the storage again, any number of times and in any order; names that are not resources raise AttributeError.", "quantifier": "all archives, all access histories, all later storage contents", "why_tests_cant": "all access histories", "anchors": ["flatdata-py/flatdata/lib/archive.py:Archive.__getattr__"]}
{"id": "C26", "title": "Empty containers", "statement": "A resource present on disk opens as a container object. (False of the code: an empty vector, empty multivector or empty raw data resource - including the archive signature itself - opens as None, as if it were absent.)", "quantifier": "all archives and resources", "why_tests_cant": "interaction of container truth value and loading", "anchors": ["flatdata-py/flatdata/lib/archive.py:Archive._open_resource"]}
{"id": "C27", "title": "Reported archive size", "statement": "size_in_bytes of an archive is the sum, over the non-empty resources, of the lengths of their data files, recursively; indices of multivectors and schemas are not counted.", "quantifier": "all archives", "why_tests_cant": "all archives", "anchors": ["flatdata-py/flatdata/lib/archive.py:Archive.size_in_bytes", "flatdata-py/flatdata/lib/resources.py:ResourceBase.size_in_bytes"]}
{"id": "C28", "title": "A resource can be set only once, unknown resources never", "statement": "After a successful set(name, ..) every later set(name, ..) raises ResourceAlreadySetError and changes no file; set of an undeclared name raises UnknownResourceError and changes no file.", "quantifier": "all builder histories", "why_tests_cant": "all histories", "anchors": ["flatdata-py/flatdata/lib/archive_builder.py:ArchiveBuilder.set"]}
{"id": "C29", "title": "Only dictionaries with exactly the declared fields are accepted", "statement": "set of an instance, vector or multivector resource succeeds only if each dictionary has exactly the structure's fields (and each multivector element a declared structure name); otherwise it raises MissingFieldError, UnknownFieldError or UnknownStructureError before any payload byte is produced.", "quantifier": "all values", "why_tests_cant": "all dictionaries, all positions of the bad element", "anchors": ["flatdata-py/flatdata/lib/archive_builder.py:__validate_structure_fields", "flatdata-py/flatdata/lib/archive_builder.py:__set_multivector"]}
{"id": "C30", "title": "A failed set can be retried and leaves other resources alone", "statement": "A set that raises leaves the files of all other resources unchanged, and a subsequent successful set of the same resource produces the same files as if the failure had not happened.", "quantifier": "all builder histories with failures", "why_tests_cant": "all failure points", "anchors": ["flatdata-py/flatdata/lib/archive_builder.py:ArchiveBuilder.set", "flatdata-py/flatdata/lib/resource_storage.py:ResourceStorage.get"]}
{"id": "C31", "title": "The order in which resources are set is irrelevant", "statement": "Two histories that set the same resources to the same values in different orders leave identical files.", "quantifier": "all permutations of set calls", "why_tests_cant": "factorially many orders", "anchors": ["flatdata-py/flatdata/lib/archive_builder.py:ArchiveBuilder.set"]}
{"id": "C32", "title": "What the builder writes, the reader opens", "statement": "If an archive builder sets all required resources (and any optional ones) to acceptable values, opening the resulting directory with the archive class generated from the same schema succeeds, and every non-empty resource reads back the value that was set.", "quantifier": "all archive types, all values, all orders", "why_tests_cant": "end-to-end over all schemas and values", "anchors": ["flatdata-py/flatdata/lib/archive_builder.py:ArchiveBuilder", "flatdata-py/flatdata/lib/archive.py:Archive"]}
{"id": "C33", "title": "A crashed writer never yields an archive that opens with wrong data", "statement": "Let an archive builder start in an empty directory and let any calls of set run, failing or not. At every point between two file operations, the directory either fails to open, or opens with the signature and every stored resource complete: exactly as a successful set in the history left it, or absent and optional. (Not claimed, and refuted by counterexamples: a truncated write of at least 16 bytes is accepted; finish after a failed set writes unframed leftovers.)", "quantifier": "all builder histories of set calls (and a finish after successful ones), all crash points between file operations", "why_tests_cant": "crash points cannot be enumerated by tests", "anchors": ["flatdata-py/flatdata/lib/archive_builder.py:ArchiveBuilder.set", "flatdata-py/flatdata/lib/file_resource_writer.py"]}
{"id": "C34", "title": "finish flushes exactly the resources still open", "statement": "finish writes nothing for resources whose set completed; it closes each resource left open by a failed set, and is idempotent.", "quantifier": "all builder histories", "why_tests_cant": "all histories", "anchors": ["flatdata-py/flatdata/lib/archive_builder.py:ArchiveBuilder.finish", "flatdata-py/flatdata/lib/resource_storage.py:ResourceStorage.close"]}
{"id": "C35", "title": "A value accepted by set is stored, except in two known cases", "statement": "If set returns, the file contains the serialised value, with exactly two exceptions, in which an empty resource is stored instead: raw data given as anything but bytes (e.g. str), and sub-archive resources (any value).", "quantifier": "all values of all Python types", "why_tests_cant": "all values", "anchors": ["flatdata-py/flatdata/lib/resource_storage.py:_Resource.write", "flatdata-py/flatdata/lib/archive_builder.py:ArchiveBuilder.set"]}
{"id": "C36", "title": "Tar storage behaves like the directory it was made from", "statement": "For every directory tree and every tar listing of it (any member order, with or without ./ prefixes), get along any path returns the same bytes / sub-storage / missing error as the file storage does.", "quantifier": "all directory trees, all member orders, all keys", "why_tests_cant": "all trees and orders", "anchors": ["flatdata-py/flatdata/lib/tar_archive_resource_storage.py", "flatdata-py/flatdata/lib/file_resource_storage.py"]}
{"id": "C37", "title": "Listing a tar storage", "statement": "ls() of a tar (sub-)storage lists exactly the immediate entries of that directory, each once.", "quantifier": "all trees", "why_tests_cant": "all trees", "anchors": ["flatdata-py/flatdata/lib/tar_archive_resource_storage.py:TarArchiveResourceStorage.ls"]}
{"id": "C38", "title": "Archive selection by the inspector", "statement": "open_archive picks the named archive if given and present, the unique *.archive entry if no name is given, and raises otherwise. (For tar archives it raises in every case because the schema object cannot be read.)", "quantifier": "all directory listings and names", "why_tests_cant": "all listings", "anchors": ["flatdata-py/flatdata/lib/inspector.py:open_archive"]}
{"id": "C39", "title": "Archive name detection by the writer", "statement": "If the text contains the word archive exactly once, as the keyword of the only archive, the detected name is the declared name; if it contains it more than once an error is raised (also when the second occurrence is part of a comment or identifier).", "quantifier": "all schema texts", "why_tests_cant": "all texts", "anchors": ["flatdata-py/flatdata/lib/flatdata_writer.py:Writer._get_archive_name"]}
{"id": "C40", "title": "bits_required is exact", "statement": "For a signed type a value needs at most w bits iff -2^(w-1) <= v < 2^(w-1); for an unsigned type iff 0 <= v < 2^w; negative values of unsigned types are rejected.", "quantifier": "all integers, all widths", "why_tests_cant": "unbounded integers", "anchors": ["flatdata-generator/flatdata/generator/tree/helpers/basictype.py:BasicType.bits_required"]}
{"id": "C41", "title": "Constants fit their type", "statement": "A constant definition is accepted iff its value is in the range of its type.", "quantifier": "all integers and types", "why_tests_cant": "unbounded integers", "anchors": ["flatdata-generator/flatdata/generator/tree/nodes/trivial/constant.py"]}
{"id": "C42", "title": "Enumerations are total", "statement": "An accepted enumeration of width w names each of the 2^w values representable in its type exactly once, and nothing else; user-defined values keep their name.", "quantifier": "all enumeration declarations", "why_tests_cant": "all value lists", "anchors": ["flatdata-generator/flatdata/generator/tree/nodes/trivial/enumeration.py:Enumeration.create"]}
{"id": "C43", "title": "Implicit enumeration values", "statement": "An enumerator without explicit value gets its predecessor's value plus one (0 for the first); duplicates are rejected.", "quantifier": "all enumeration declarations", "why_tests_cant": "all value lists", "anchors": ["flatdata-generator/flatdata/generator/tree/nodes/trivial/enumeration.py:Enumeration.create"]}
{"id": "C44", "title": "Enumerations that are too sparse or too narrow are rejected", "statement": "A declaration with n values and width w is accepted only if 2^w <= 2n+256 and every value fits; conversely every declaration with distinct in-range values, distinct names not clashing with generated ones, and 2^w <= 2n+256 is accepted.", "quantifier": "all enumeration declarations", "why_tests_cant": "all value lists", "anchors": ["flatdata-generator/flatdata/generator/tree/nodes/trivial/enumeration.py:Enumeration.create"]}
{"id": "C45", "title": "Basic type widths", "statement": "A field or enumeration of basic type with explicit width is accepted iff the width does not exceed the type's natural width; without width it gets the natural width; the numpy dtype chosen for the field can represent every value of the field.", "quantifier": "all types and widths", "why_tests_cant": "all widths", "anchors": ["flatdata-generator/flatdata/generator/tree/helpers/basictype.py:BasicType.__init__", "flatdata-generator/flatdata/generator/generators/python.py:to_dtype"]}
{"id": "C46", "title": "Tree insertion keeps sibling names unique and paths unambiguous", "statement": "Inserting a node whose name exists among the siblings raises SymbolRedefinition; in every tree built by insertion, looking up the path of any node returns that node, and distinct nodes have distinct paths.", "quantifier": "all trees, all insertion histories", "why_tests_cant": "all trees", "anchors": ["flatdata-generator/flatdata/generator/tree/nodes/node.py:Node.insert", "flatdata-generator/flatdata/generator/tree/nodes/node.py:Node.find"]}
{"id": "C47", "title": "Merging namespaces keeps every definition", "statement": "Definitions of all namespace blocks with the same (possibly nested) name end up as children of one namespace node in textual group order; no definition is lost; two definitions of the same name in the same namespace are rejected.", "quantifier": "all schema files", "why_tests_cant": "all combinations of blocks", "anchors": ["flatdata-generator/flatdata/generator/tree/builder.py:_merge_roots", "flatdata-generator/flatdata/generator/tree/builder.py:_ensure_namespace"]}
{"id": "C48", "title": "Name resolution", "statement": "A qualified reference resolves to the node at that absolute path; an unqualified one to the innermost enclosing definition scope that contains it, then the enclosing namespace; otherwise MissingSymbol is raised. After success every reference's target exists and has the expected kind.", "quantifier": "all trees and references", "why_tests_cant": "all scoping situations", "anchors": ["flatdata-generator/flatdata/generator/tree/resolver.py"]}
{"id": "C49", "title": "Dependency order", "statement": "If the traversal completes, every reachable definition is listed exactly once and after everything it depends on.", "quantifier": "all reference graphs", "why_tests_cant": "all graphs", "anchors": ["flatdata-generator/flatdata/generator/tree/traversal.py:DfsTraversal"]}
{"id": "C50", "title": "Circular references are detected, and only those", "statement": "The traversal raises CircularReferencing iff a definition reachable from the root depends on itself through type references; it always terminates.", "quantifier": "all reference graphs", "why_tests_cant": "all graphs", "anchors": ["flatdata-generator/flatdata/generator/tree/traversal.py:DfsTraversal._iterate"]}
{"id": "C51", "title": "Breadth-first traversal", "statement": "Breadth-first iteration terminates, visits every reachable node exactly once, in order of its distance from the root, which it reports.", "quantifier": "all reference graphs", "why_tests_cant": "all graphs", "anchors": ["flatdata-generator/flatdata/generator/tree/traversal.py:BfsTraversal"]}
{"id": "C52", "title": "Maximum resource size from references", "statement": "max_size of a resource is the minimum over all explicit references to it with field width < 64 of 2^width, and absent if there is none.", "quantifier": "all archives, all reference lists and orders", "why_tests_cant": "all orders", "anchors": ["flatdata-generator/flatdata/generator/tree/builder.py:_compute_max_resource_size"]}
{"id": "C53", "title": "Range annotations", "statement": "A schema is accepted only if no range name equals a field name of the structure, no range field is optional, and structures with ranges are only used in vectors.", "quantifier": "all schemas", "why_tests_cant": "all schemas", "anchors": ["flatdata-generator/flatdata/generator/tree/builder.py:_check_ranges"]}
{"id": "C54", "title": "Constant references", "statement": "A schema is accepted only if each constant referenced from a field has the field's type and fits the field's width, and each field has at most one optional value.", "quantifier": "all schemas", "why_tests_cant": "all schemas", "anchors": ["flatdata-generator/flatdata/generator/tree/builder.py:_check_const_refs"]}
{"id": "C55", "title": "Unreferenced constants are part of archive schemas", "statement": "Each archive schema contains every constant that no field refers to. (The documentation also promises it for every resource schema, which is false of the code.)", "quantifier": "all schemas", "why_tests_cant": "all schemas", "anchors": ["flatdata-generator/flatdata/generator/tree/builder.py:_append_constant_references", "docs/schema-language.md"]}
{"id": "C56", "title": "The normalised schema parses back to exactly the definitions it was made of", "statement": "Every definition and resource of an accepted source has exactly one schema text. If the definitions in it are in simple (not nested) namespaces, the parser reads from that text exactly the definition (or the archive with that one resource) and all definitions it depends on, in terms of full paths, and nothing else. If one of them is in a nested namespace, the parser rejects the text.", "quantifier": "all accepted sources (no namespace inside a definition, no reference into a namespace called _builtin), all their definitions and resources", "why_tests_cant": "all definitions", "anchors": ["flatdata-generator/flatdata/generator/generators/flatdata.py", "flatdata-generator/flatdata/generator/grammar.py"]}
{"id": "C57", "title": "Equal schema texts mean equal binary layout", "statement": "If two structures (or archives) have the same normalised schema text then they have the same fields with the same offsets, widths, signedness, the same resources, types and index widths: passing the schema check implies that reader and writer agree on the layout.", "quantifier": "all pairs of accepted sources in which no namespace lies inside a definition and nothing refers into a namespace called _builtin (for those the property fails: C57_counterexample_builtin); all their definitions and resources", "why_tests_cant": "all pairs", "anchors": ["flatdata-generator/flatdata/generator/generators/flatdata.py", "flatdata-py/flatdata/lib/archive.py:Archive._check_non_subarchive_schema"]}
{"id": "C58", "title": "Schema text survives embedding in generated source", "statement": "Evaluating the Python string literal generated for an archive or resource schema yields the schema text (the same holds for C++ literals).", "quantifier": "all texts", "why_tests_cant": "all texts, in particular quotes and backslashes", "anchors": ["flatdata-generator/flatdata/generator/generators/python.py:_safe_py_string_line", "flatdata-generator/flatdata/generator/generators/cpp.py:_safe_cpp_string_line"]}
{"id": "C59", "title": "Numeric literals keep their value", "statement": "Formatting a number for Rust inserts underscores between groups of three digits only: removing them gives back the decimal digits, and every group but the first has exactly three digits.", "quantifier": "all integers", "why_tests_cant": "all integers", "anchors": ["flatdata-generator/flatdata/generator/generators/rust.py:_format_numeric_literal"]}
{"id": "C60", "title": "Generated Python classes describe the computed layout", "statement": "The _FIELDS table, _SIZE_IN_BYTES, container kinds, initialisers and optional flags of generated classes are those of the schema, so that runtime theorems apply to every generated module.", "quantifier": "all schemas", "why_tests_cant": "all schemas", "anchors": ["flatdata-generator/flatdata/generator/templates/py/python.jinja2", "flatdata-generator/flatdata/generator/generators/python.py"]}
{"id": "C61", "title": "Implicitly bound resources", "statement": "binding_resources_or_self of a resource returns the bound groups that list it, or the resource itself if there is none.", "quantifier": "all archives", "why_tests_cant": "all archives", "anchors": ["flatdata-generator/flatdata/generator/tree/syntax_tree.py"]}
{"id": "C62", "title": "Structure layout computed by the generator", "statement": "For every accepted schema, every field's offset is the sum of the widths of the fields declared before it, the size of every structure is the sum of the widths of its fields, and every field's width is at most the width of its basic type (of its enumeration's basic type).", "quantifier": "all accepted schemas, all structures and fields", "why_tests_cant": "Universal over schemas and field lists; tests compare a handful of offsets.", "anchors": ["flatdata-generator/flatdata/generator/tree/builder.py:_compute_structure_sizes", "flatdata-generator/flatdata/generator/tree/builder.py:_update_field_type_references"]}
{"id": "C63", "title": "Multivectors have one builtin index type", "statement": "For every accepted schema, every multivector of index width w refers to exactly one builtin structure, the structure IndexType<w> in the namespace _builtin.multivector beside its archive.", "quantifier": "all accepted schemas, all multivectors", "why_tests_cant": "Depends on the history of insertions and on all other definitions; universal over schemas.", "anchors": ["flatdata-generator/flatdata/generator/tree/builder.py:_append_builtin_structures", "flatdata-generator/flatdata/generator/tree/nodes/resources/multivector.py"]}
{"id": "C64", "title": "Schema compilation terminates; accepted schemas are acyclic", "statement": "For every list of parsed definitions build_ast ends with exactly one outcome (a tree or an exception), and in an accepted schema no definition depends on itself, directly or not.", "quantifier": "all schemas", "why_tests_cant": "Termination and absence of cycles are universal over inputs and need an invariant.", "anchors": ["flatdata-generator/flatdata/generator/tree/builder.py:build_ast", "flatdata-generator/flatdata/generator/tree/traversal.py:DfsTraversal"]}
{"id": "C65", "title": "Explicit references use types of their resource", "statement": "In every accepted schema the structure named by an explicit reference is one of the structure types of the resource the reference is attached to; a schema that passes the earlier checks is rejected exactly if this or the conditions on constants fail.", "quantifier": "all schemas", "why_tests_cant": "Universal over schemas.", "anchors": ["flatdata-generator/flatdata/generator/tree/builder.py:_check_explicit_references"]}
{"id": "C66", "title": "The compiled tree says what the schema says", "statement": "For every accepted schema text, every constant, enumeration, structure and archive of every namespace block is found in the compiled tree at its qualified name and is what the text declares: constants with their type and value; enumerations with their width, the declared enumerators with their values and one generated enumerator for every other value; structures with the declared fields in order, each with the declared basic type and width or the enumeration its type name means, its @range, and its @const/@optional constants; archives with the declared resources in order (container class, optionality, element types, explicit references with source structure, source field and destination) and the @bound_implicitly groups. Every reference points to what its text means at that place. Conversely every definition of the tree is declared by the schema or is the index type of a multivector.", "quantifier": "all schema texts, all blocks and definitions", "why_tests_cant": "Universal over schemas; the tree is the result of merging, index type insertion, reference resolution, renaming and five further passes, none of which may lose or alter a declared attribute.", "anchors": ["flatdata-generator/flatdata/generator/tree/builder.py:build_ast", "flatdata-generator/flatdata/generator/tree/nodes/trivial/field.py", "flatdata-generator/flatdata/generator/tree/nodes/trivial/structure.py", "flatdata-generator/flatdata/generator/tree/nodes/archive.py", "flatdata-generator/flatdata/generator/tree/nodes/resources"]}
{"id": "C67", "title": "Generated classes round-trip what the schema declares", "statement": "For every accepted schema whose Python module can be imported (C60) and every archive in it: whatever history of calls a program makes on the generated builder, if each resource was supplied with a value that suits its declaration (dictionaries with exactly the declared fields, objects of the declared structures, bytes, within the size limits of headers and index width), or is optional and left alone, or is a sub-archive that opens, then every such set returns, and the directory the builder leaves (or a tar of it) opens with the generated archive class; every resource that was set reads back as the value it was set to, every other one is None, and sub-archives are loaded.", "quantifier": "all schema texts, all archives in them, all call histories, all values suiting the declarations, both storages", "why_tests_cant": "Universal over schemas and over data: the layout computed by the generator, the index types it inserts, the schema texts it embeds, the classes it writes and the runtime that interprets them have to fit for all of them.", "anchors": ["flatdata-generator/flatdata/generator/templates/py/python.jinja2", "flatdata-generator/flatdata/generator/generators/python.py", "flatdata-generator/flatdata/generator/tree/builder.py:build_ast", "flatdata-py/flatdata/lib/archive_builder.py:ArchiveBuilder", "flatdata-py/flatdata/lib/archive.py:Archive"]}
{"id": "C68", "title": "Data read with another version of the schema", "statement": "Data written under one schema and opened with the class generated from another schema: for any two accepted schemas with an archive of the same name (simple, no declarations in `_builtin`), if both generated classes open a directory (or tar), then the archives are declared in the same namespace and both classes return exactly the same data: the same resources, in the same order, each absent in both or with the same structure classes (fields, offsets, widths, index type) over the same bytes, recursively in sub-archives. So a reader with another version of the schema either refuses to open what the builder of the first schema wrote or returns the values that were set.", "quantifier": "all pairs of schema texts, all archives of the same name in them, all directories, all call histories, both storages", "why_tests_cant": "Schemas evolve in arbitrary ways; the guarantee that no incompatible change is ever read silently ranges over all pairs of schemas and all directories.", "anchors": ["flatdata-py/flatdata/lib/archive.py:Archive", "flatdata-py/flatdata/lib/resource_storage.py:ResourceStorage", "flatdata-generator/flatdata/generator/tree/syntax_tree.py:SyntaxTree.schema", "flatdata-generator/flatdata/generator/templates/flatdata", "flatdata-generator/flatdata/generator/templates/py/python.jinja2"]}
{"id": "C69", "title": "The layout of a schema text does not matter", "statement": "Two schema texts that consist of the same tokens (words, the punctuation marks { } ( ) < > : ; , =, and comments) are treated alike by the generator: both are rejected, or both define exactly the same. White space only separates words and is free around punctuation marks and comments, and what is written in a comment has no influence on the definitions. Every text has exactly one sequence of tokens. The only exception is the text without any character, which is an empty schema, while a text of white space is a parse error.", "quantifier": "all pairs of schema texts, all contents of comments", "why_tests_cant": "Ranges over all texts and all layouts of each, including texts that are rejected.", "anchors": ["flatdata-generator/flatdata/generator/grammar.py:flatdata_grammar", "flatdata-generator/flatdata/generator/tree/builder.py:_build_node_tree", "flatdata-generator/flatdata/generator/tree/builder.py:build_ast"]}
{"id": "C70", "title": "C++ reads every field correctly", "statement": "For every buffer with eight bytes of padding after the data, every field of 1 to 64 bits and every field type the generator uses, reading the field with the C++ runtime stays inside the buffer and returns the integer stored in the field's bits; the only exception are signed one-bit fields, which read 0 or 1.", "quantifier": "all buffers, offsets, widths 1..64, bool/integer/enumeration types", "why_tests_cant": "2^n buffers times all offsets and widths; fields of nine bytes take a separate path", "anchors": ["flatdata-cpp/include/flatdata/internal/Reader.h:Reader", "flatdata-cpp/include/flatdata/internal/BitHelpers.h"]}
{"id": "C71", "title": "C++ writes exactly one field", "statement": "Assigning a value in the range of the field (non-negative for enumerations) through the C++ runtime stores its digits in the bits of the field, changes no other bit of the buffer and stays inside it, whatever the buffer contained; reading gives the value back and all other fields keep their values. For every other value the exact effect is stated.", "quantifier": "all buffers, offsets, widths 1..64, types, all integers", "why_tests_cant": "all buffer contents and values", "anchors": ["flatdata-cpp/include/flatdata/internal/Writer.h:Writer"]}
{"id": "C72", "title": "Rust reads every field correctly", "statement": "For every buffer and every field of 1 to 64 bits inside it that does not span nine bytes or begins in the first byte the Rust runtime returns the integer stored in the field's bits without reading outside of the buffer (signed one-bit fields read 0 or 1). For all other fields the value returned is independent of the field's last byte.", "quantifier": "all buffers, offsets, widths 1..64, types", "why_tests_cant": "2^n buffers times all offsets and widths", "anchors": ["flatdata-rs/lib/src/bytereader.rs:flatdata_read_bytes"]}
{"id": "C73", "title": "Rust writes exactly one field", "statement": "For fields as in C72 and values in the range of the field the Rust runtime stores the digits of the value in the bits of the field and changes no other bit, whatever the buffer contained; reading gives the value back. For all other fields the field's last byte is never written.", "quantifier": "all buffers, offsets, widths 1..64, types, all integers", "why_tests_cant": "all buffer contents and values", "anchors": ["flatdata-rs/lib/src/bytewriter.rs:flatdata_write_bytes"]}
{"id": "C74", "title": "Go reads every field correctly", "statement": "For every buffer with at least one byte after the field and every field of 1 to 64 bits the generated Go accessor does not panic and returns the integer stored in the field's bits; the only exception are signed fields inside one byte that do not begin with it, which are returned without their sign.", "quantifier": "all buffers, offsets, widths 1..64, types", "why_tests_cant": "2^n buffers times all offsets and widths", "anchors": ["flatdata-go/flatdata/reader.go:Read", "flatdata-generator/flatdata/generator/templates/go/structure.jinja2"]}
{"id": "C75", "title": "The languages agree about fields", "statement": "A field of 1 to 64 bits is read alike by Python, C++, Rust and Go, for every content of a padded buffer, if and only if it is none of: a signed one-bit field, a field that spans nine bytes and begins after the first byte, a signed field inside a byte not beginning with it, an unsigned 64-bit field that does not begin a byte. The C++ and Rust writers produce identical buffers.", "quantifier": "all buffers, offsets, widths, signedness, type sizes", "why_tests_cant": "tests compare a handful of archives; the claim is about every offset and width", "anchors": ["flatdata-py/flatdata/lib/data_access.py", "flatdata-cpp/include/flatdata/internal/Reader.h", "flatdata-rs/lib/src/bytereader.rs", "flatdata-go/flatdata/reader.go"]}
{"id": "C76", "title": "Assignment order does not matter", "statement": "Assigning to the fields of a new C++ or Rust object in any order and any number of times (values in range) produces exactly the bytes the Python builder writes for the values assigned last.", "quantifier": "all structures, all histories of assignments", "why_tests_cant": "histories and structures are unbounded", "anchors": ["flatdata-cpp/include/flatdata/internal/Writer.h", "flatdata-rs/lib/src/bytewriter.rs", "flatdata-py/flatdata/lib/archive_builder.py"]}
{"id": "C77", "title": "Exact files of a Python builder", "statement": "A successful `set` of values that fit leaves exactly the documented files: `<name>` holds an 8-byte little-endian payload size, the payload (structures one after another with the first field in the lowest bits; multivector elements with a leading type byte) and 8 zero bytes; `<name>.schema` the schema; a multivector additionally `<name>_index` with one entry per bucket plus a final one and `<name>_index.schema`. No other file changes.", "quantifier": "all structures, values, buckets, earlier contents of the directory", "why_tests_cant": "values and structures are unbounded; tests compare a few files", "anchors": ["flatdata-py/flatdata/lib/archive_builder.py", "flatdata-py/flatdata/lib/file_resource_storage.py"]}
{"id": "C78", "title": "Exact files of a C++ builder", "statement": "`ExternalVector`, `MultiVector` and the `set_...` functions of the C++ builder leave exactly the documented files for the values assigned last, wherever the buffers were flushed and in whatever order members were assigned; `Vector` and `Struct` objects hold the documented bytes after any legal history of growing, changing, resizing and removing.", "quantifier": "all structures, histories of calls, flush points, earlier contents of the directory", "why_tests_cant": "histories and flush points are unbounded", "anchors": ["flatdata-cpp/include/flatdata/ExternalVector.h", "flatdata-cpp/include/flatdata/MultiVector.h", "flatdata-cpp/include/flatdata/Vector.h", "flatdata-cpp/include/flatdata/internal/ResourceStorage.inl"]}
{"id": "C79", "title": "What C++ shows of documented files", "statement": "C++ accepts the files of a resource exactly if the size in the header matches the file and the schema file equals the expected non-empty schema; of documented files it shows the stored values: structures, raw data, every element of a vector (ranges: one less), every bucket of a multivector with `for_each` and, per type, with `iterator`.", "quantifier": "all files, structures, values, buckets", "why_tests_cant": "files and values are unbounded", "anchors": ["flatdata-cpp/include/flatdata/internal/ResourceStorage.inl", "flatdata-cpp/include/flatdata/ArrayView.h", "flatdata-cpp/include/flatdata/MultiArrayView.h"]}
{"id": "C80", "title": "Python and C++ exchange archives", "statement": "A vector or multivector written by the C++ builder is opened by Python and shows the values assigned last, one written by the Python builder is opened by C++ and shows the values given, and for equal values both leave a directory in the same state byte for byte.", "quantifier": "all structures, values, histories of calls, directories", "why_tests_cant": "the two runtimes are tested separately, on a few archives", "anchors": ["flatdata-py/flatdata/lib/archive_builder.py", "flatdata-py/flatdata/lib/resources.py", "flatdata-cpp/include/flatdata/ExternalVector.h", "flatdata-cpp/include/flatdata/MultiVector.h", "flatdata-cpp/include/flatdata/MultiArrayView.h"]}
{"id": "C81", "title": "What the Rust builder writes", "statement": "Filling a vector through `start_...` (any buffer size), setting a vector, structure or raw data, or filling a multivector in Rust changes exactly the files of that resource, and leaves in them the documented bytes of the values assigned last; an empty vector of structures with a range gets one element of zeros. Creating an archive writes exactly the signature and its schema.", "quantifier": "all structures whose fields the Rust runtime supports, histories of setter calls, buckets, directories, buffer sizes", "why_tests_cant": "histories of calls, buckets and flush points are unbounded", "anchors": ["flatdata-rs/lib/src/vector.rs", "flatdata-rs/lib/src/multivector.rs", "flatdata-rs/lib/src/storage.rs", "flatdata-rs/lib/src/filestorage.rs"]}
{"id": "C82", "title": "What Rust shows of documented files", "statement": "Rust accepts the files of a resource exactly if the size in the header matches the file and the schema file equals the schema, reports it as missing exactly if there is no data file, and never panics doing so. Of documented files it shows the stored values: structures, raw data and the strings in it, every element of a vector, the ranges, every bucket of a multivector by index, in any slice, and in any interleaving of iteration from the front and the back; an access behind the end panics.", "quantifier": "all files, structures, values, buckets, positions, schedules of next/next_back", "why_tests_cant": "files, values and iteration schedules are unbounded", "anchors": ["flatdata-rs/lib/src/storage.rs", "flatdata-rs/lib/src/arrayview.rs", "flatdata-rs/lib/src/multiarrayview.rs", "flatdata-rs/lib/src/rawdata.rs"]}
{"id": "C83", "title": "Rust exchanges archives with Python and C++", "statement": "A vector or multivector written in Rust is opened in Python and in C++ and shows the values assigned last, one written in Python or C++ is opened in Rust and shows its values, and for equal values the Rust and the C++ builder leave a directory in the same state byte for byte (except for empty vectors of structures with a range).", "quantifier": "all structures, values, histories of calls, directories", "why_tests_cant": "the runtimes are tested separately, on a few archives", "anchors": ["flatdata-rs/lib/src/vector.rs", "flatdata-rs/lib/src/multivector.rs", "flatdata-rs/lib/src/multiarrayview.rs", "flatdata-cpp/include/flatdata/MultiVector.h", "flatdata-py/flatdata/lib/resources.py"]}
{"id": "C84", "title": "When an archive opens in Rust", "statement": "The generated `open` succeeds exactly if the signature is well-formed and every resource is well-formed and not too large, or optional and completely absent; broken files of optional resources are errors, never taken for absent; `Missing` is returned exactly if there is no signature file; it panics exactly if the first defect is an instance that is too short.", "quantifier": "all directories (any bytes in any files), all archives with nested sub-archives", "why_tests_cant": "directory states are unbounded", "anchors": ["flatdata-generator/flatdata/generator/templates/rust/archive.jinja2", "flatdata-rs/lib/src/storage.rs"]}
{"id": "C85", "title": "When an archive opens in C++", "statement": "`is_open()` is true after the generated `open` exactly if the signature is well-formed, every mandatory resource is, recursively, and no resource that is there is too large; an optional resource is there exactly if its files are well-formed.", "quantifier": "all directories (any bytes in any files), all archives with nested sub-archives", "why_tests_cant": "directory states are unbounded", "anchors": ["flatdata-cpp/src/Archive.cpp", "flatdata-cpp/include/flatdata/Archive.h", "flatdata-generator/flatdata/generator/templates/cpp/archive.jinja2"]}
{"id": "C86", "title": "What opens in Rust opens the same in C++", "statement": "Every directory, written by a builder or not, that opens as an archive in Rust opens in C++, with the same resources absent, the same numbers of elements and the same value in every field of every element.", "quantifier": "all directories, all archives, all structures whose fields Rust supports", "why_tests_cant": "directory states are unbounded", "anchors": ["flatdata-generator/flatdata/generator/templates/rust/archive.jinja2", "flatdata-generator/flatdata/generator/templates/cpp/archive.jinja2", "flatdata-rs/lib/src/storage.rs", "flatdata-cpp/src/Archive.cpp"]}
{"id": "C87", "title": "What the Go readers show", "statement": "On documented files the generated Go readers never panic for valid indices; structures, vectors, slices and raw data show what is stored, except for negative values in signed fields inside one byte or of one bit. A multivector's `Get` returns one reference per element, in order, but all elements of one type in a bucket are one object, on the last of them; buckets without repeated types are shown correctly; `GetSize` is one too large and the extra bucket is empty.", "quantifier": "all structures, all values, all vectors, multivectors and raw data, all histories of `Get` calls on a multivector object, all slices", "why_tests_cant": "unbounded contents and histories", "anchors": ["flatdata-generator/flatdata/generator/templates/go/vector.jinja2", "flatdata-generator/flatdata/generator/templates/go/multivector.jinja2", "flatdata-generator/flatdata/generator/templates/go/structure.jinja2", "flatdata-generator/flatdata/generator/templates/go/rawdata.jinja2", "flatdata-go/flatdata/reader.go"]}
{"id": "C88", "title": "When an archive opens in Go", "statement": "The generated `Open...Archive` succeeds exactly if every data file that exists has at least 16 bytes and a non-empty schema file, equal to the expected schema for every open resource; resources without a file are closed, optional or not; sub-archives are searched in the lower-cased directory and always open. An archive that opens in Rust, with mandatory sub-archives in lower case, opens in Go on the same data.", "quantifier": "all directories (any bytes in any files), all archives with nested sub-archives", "why_tests_cant": "directory states are unbounded", "anchors": ["flatdata-go/flatdata/resource.go", "flatdata-generator/flatdata/generator/templates/go/archive.jinja2"]}
{"id": "C89", "title": "The C++, Rust and Go classes are those of the schema", "statement": "For every accepted schema the generated C++ header declares every type before its use, names of types in headers and Rust modules refer to the declared enumerations, and the classes are exactly those of the declared structures, each of the documented size with one member per declared field, in order, at the documented bits, with a type that has the sign of the field and holds its values. Enumerations have exactly the values of their width, each once. In Go a structure gets such a class unless it has an enumeration field, for which the generator raises an error. Reading the members of such a class from documented bytes gives the stored values.", "quantifier": "all accepted schemas (namespaces not below definitions; for Rust: no enumerations over bool or in a namespace `super`), all structures and fields", "why_tests_cant": "the set of schemas is unbounded", "anchors": ["flatdata-generator/flatdata/generator/generators/cpp.py", "flatdata-generator/flatdata/generator/generators/rust.py", "flatdata-generator/flatdata/generator/generators/go.py", "flatdata-generator/flatdata/generator/templates/cpp/structure.jinja2", "flatdata-generator/flatdata/generator/templates/cpp/enumeration.jinja2", "flatdata-generator/flatdata/generator/templates/rust/structure.jinja2", "flatdata-generator/flatdata/generator/templates/rust/enumeration.jinja2", "flatdata-generator/flatdata/generator/templates/go/structure.jinja2"]}
{"id": "C90", "title": "Enumeration fields never show unknown values", "statement": "Whatever bytes are in memory, the getter of an enumeration field in Rust and C++ returns one of the values of the enumeration (so that Rust's reinterpretation as an enumeration is defined), except for signed enumerations of one bit, where it returns 1 instead of -1.", "quantifier": "all accepted schemas, all enumeration fields, all memory contents", "why_tests_cant": "memory contents and schemas are unbounded", "anchors": ["flatdata-generator/flatdata/generator/templates/rust/structure.jinja2", "flatdata-generator/flatdata/generator/templates/rust/enumeration.jinja2", "flatdata-generator/flatdata/generator/templates/cpp/enumeration.jinja2", "flatdata-rs/lib/src/bytereader.rs", "flatdata-cpp/include/flatdata/internal/Reader.h", "flatdata-generator/flatdata/generator/tree/builder.py"]}
{"id": "C91", "title": "Comparing and copying structures", "statement": "In Rust two structures compare equal exactly if all their fields hold the same bits, which is the same as all getters returning the same; fill_from copies the bits of all fields and changes nothing else, after which the structures are equal. In C++ two structures compare equal exactly if their bytes are the same; both languages agree whenever the unused bits agree (and disagree if only unused bits differ). C++'s < holds exactly if every field is less: a strict partial order, but not a strict weak order.", "quantifier": "all structures (fields Rust can address), all memory contents of both operands", "why_tests_cant": "contents and structures are unbounded", "anchors": ["flatdata-generator/flatdata/generator/templates/rust/structure.jinja2", "flatdata-generator/flatdata/generator/templates/cpp/structure.jinja2"]}
{"id": "C92", "title": "Optional fields", "statement": "A field with an invalid value shows no value (None, empty boost::optional, false) exactly if its bits are those of the constant, and otherwise the stored value; setting None or a value and reading it back gives the same, except that the constant itself reads as no value, and no other bits change; Rust and C++ agree on all memory contents. Exception: a signed one-bit field with constant -1 never is invalid.", "quantifier": "all fields with a constant in range, all memory contents, all values in range", "why_tests_cant": "fields, contents and values are unbounded", "anchors": ["flatdata-generator/flatdata/generator/templates/rust/structure.jinja2", "flatdata-generator/flatdata/generator/templates/cpp/structure.jinja2", "flatdata-cpp/include/flatdata/internal/Reader.h", "flatdata-cpp/include/flatdata/internal/Writer.h"]}
{"id": "C93", "title": "Constants in generated C++ and Rust", "statement": "For every accepted schema the generated C++ and Rust code declares exactly the constants of the schema, each once, with the type and the value of the schema, and the value fits the type; the optional fields, and no others, refer to their constant by a name that is declared (in C++: before its use), and the constant has the type of the field and is one of its values. In Rust this needs names of constants without lower-case letters; with one, an optional field that uses the constant never compiles.", "quantifier": "all accepted schemas, all constants, structures and fields", "why_tests_cant": "schemas are unbounded", "anchors": ["flatdata-generator/flatdata/generator/templates/cpp/constant.jinja2", "flatdata-generator/flatdata/generator/templates/rust/constant.jinja2", "flatdata-generator/flatdata/generator/templates/cpp/structure.jinja2", "flatdata-generator/flatdata/generator/templates/rust/structure.jinja2", "flatdata-generator/flatdata/generator/generators/rust.py:_camel_to_snake_case"]}
{"id": "C94", "title": "Tar files in C++", "statement": "For every tar file (POSIX 1990 and GNU: regular files, directories with short names, long names, octal and base-256 sizes) the C++ reader finds the regular files in order, with their names, offsets and contents; the storage made of a tar file with the files of a directory (names with or without ./) has the same resources as the directory, and every archive is opened from it as from the directory.", "quantifier": "all tar images below 2^63 bytes, all sets of files, all archives", "why_tests_cant": "images, names and contents are unbounded", "anchors": ["flatdata-cpp/src/TarReader.cpp:read_tar_file_entries", "flatdata-cpp/include/flatdata/MemoryMappedTarFileStorage.h", "flatdata-cpp/include/flatdata/TarArchiveResourceStorage.h"]}
{"id": "C95", "title": "Arbitrary bytes as a tar file in C++", "statement": "Whatever bytes a file consists of, opening it as a tar file in C++ never reads outside of the file, and each resource that is handed out lies inside of the file and belongs to a block that is a valid header of a regular file; reading ends after at most one step for each block, unless a block is a header with a size of 2^62 bytes or more (with the size 2^64-512 it does not end).", "quantifier": "all byte sequences", "why_tests_cant": "inputs are unbounded", "anchors": ["flatdata-cpp/src/TarReader.cpp:read_tar_file_entries", "flatdata-cpp/include/flatdata/MemoryMappedTarFileStorage.h"]}
{"id": "C96", "title": "Explanation of a schema mismatch in C++", "statement": "If the schema of an archive differs from that of the program, describe( ) shows the lines of a shortest edit script from the expected to the stored schema: all removed and added lines, in order and with their signs, with at most three lines of context before and two after each, and dots, never two in a row, for what is left out; nothing is shown exactly if the schemas have the same lines. Computing it ends after at most as many steps as there are lines, without a failing assertion.", "quantifier": "all pairs of texts", "why_tests_cant": "texts are unbounded, and minimality ranges over all edit scripts", "anchors": ["flatdata-cpp/src/Archive.cpp:compute_diff", "flatdata-cpp/src/Archive.cpp:create_context", "flatdata-cpp/src/Archive.cpp:to_lines"]}
{"id": "C97", "title": "Archives of Rust in Python", "statement": "An archive that can be opened with the generated Rust code can be opened with the generated Python classes, from the directory or from a tar archive of it, and has the same contents: the same resources are absent, vectors, instances, raw data and multivectors are the same bytes, with the same elements and buckets and the same values of their fields (unsigned 64-bit fields that do not begin a byte excepted; resources without elements are None). This holds for whatever is in the files, provided that nothing is left over of resources that are absent: no schema without data, no directory without signature.", "quantifier": "all directories with any files in them, all nested archive declarations with distinct names", "why_tests_cant": "the contents of the files are arbitrary bytes, and archives nest without bound", "anchors": ["flatdata-py/flatdata/lib/archive.py:_open_resource", "flatdata-py/flatdata/lib/resources.py", "flatdata-rs/lib/src/storage.rs:read_and_check_schema", "flatdata-generator/flatdata/generator/templates/rust/archive.jinja2"]}
{"id": "C98", "title": "Generated Rust archives", "statement": "For every accepted schema whose names remain different in Rust (no two archives of a namespace with the same name in snake case, no two resources of an archive that differ in case only, no multivector whose name in camel case is that of another type of the namespace, no multivector of two structures with the same name; no namespace `super`, none that ends with `_builtin`, none inside of a definition), the generated Rust program defines no name twice, every path in it refers to an item, and opening the archive at the path of each declared archive reads exactly what the schema declares: the resources in order, each with its kind, name, schema, optionality, maximal size, the size of its structure, whether the structure has ranges, the width of its index and, recursively, its sub-archive; the variants of a multivector are the listed structures, in order. The generated Python class is the same: what Rust opens, Python opens with the same contents (C97).", "quantifier": "all accepted schemas with names as stated, all archives in them, all directories with any files", "why_tests_cant": "schemas are unbounded, and archives nest without bound", "anchors": ["flatdata-generator/flatdata/generator/templates/rust/rust.jinja2", "flatdata-generator/flatdata/generator/templates/rust/archive.jinja2", "flatdata-generator/flatdata/generator/templates/rust/variadic.jinja2", "flatdata-generator/flatdata/generator/templates/rust/index.jinja2", "flatdata-generator/flatdata/generator/generators/rust.py"]}
{"id": "C99", "title": "Names in generated Rust code", "statement": "For every accepted schema that avoids a stated list of names (C98's conditions; namespaces and types are not called like keywords or like types that the code uses; no field or range is called like a function that every struct has, ends with an underscore or begins with `set_`; ranges of a structure have different names and no enumeration type; enumeration values differ in more than case and underscores and none is `SELF`; resources are not called like keywords, like members of archives or like constants of the namespace), a Rust compiler accepts the names in the generated code: they are identifiers, no two members of a type have the same name, no variable hides another one, nothing hides a type that the code uses, ranges are read with integer types. Escaping turns a name into an identifier exactly if it is not among six names, and two names are escaped to the same exactly if one is a reserved word and the other is this word with an underscore.", "quantifier": "all accepted schemas with names as stated; all identifiers", "why_tests_cant": "schemas and names are unbounded; tests compile the generated code for a few schemas only", "anchors": ["flatdata-generator/flatdata/generator/generators/rust.py", "flatdata-generator/flatdata/generator/templates/rust/structure.jinja2", "flatdata-generator/flatdata/generator/templates/rust/enumeration.jinja2", "flatdata-generator/flatdata/generator/templates/rust/archive.jinja2", "flatdata-generator/flatdata/generator/templates/rust/variadic.jinja2"]}
{"id": "C100", "title": "Generated C++ archives", "statement": "For every accepted schema whose names remain different in C++ (in every namespace, types, inner namespaces, `internal`, `to_string`, and names with `Template`, `Mutator` and `Builder` appended to names of structures and archives are different, and so are the names under which schemas are kept; no explicit reference leads to an instance or an archive, none has 63 bits; no namespace `_builtin`, none inside of a definition), the generated header defines no name twice, uses types only after their declaration, and opening each archive reads exactly what the schema declares: the resources in order, each with its kind, name, schema, optionality, maximal size, the size of its structure, whether it has ranges, the width of its index and, recursively, its sub-archive; the builder writes the same resources with the same names and schemas. So what generated Rust code opens, generated C++ code opens with the same contents.", "quantifier": "all accepted schemas with names as stated, all archives in them, all directories with files of less than 2^63 bytes", "why_tests_cant": "schemas are unbounded, and archives nest without bound", "anchors": ["flatdata-generator/flatdata/generator/templates/cpp/cpp.jinja2", "flatdata-generator/flatdata/generator/templates/cpp/archive.jinja2", "flatdata-generator/flatdata/generator/templates/cpp/resource.jinja2", "flatdata-generator/flatdata/generator/templates/cpp/structure.jinja2", "flatdata-generator/flatdata/generator/generators/cpp.py"]}
{"id": "C101", "title": "The schema language is exactly its grammar", "statement": "A nonempty schema text is accepted by the parser if and only if its tokens (words, punctuation marks, comments) form a schema of a declarative grammar: enumerations, structures, archives, constants and comments in namespaces, written as production rules with no order of alternatives and no look-ahead; and the definitions it yields are exactly the ones that the rules assign to the tokens. All other texts are rejected: with a parsing error, or, for a decimal literal with leading zeros, with the ValueError of its conversion. The language is unambiguous: no text declares two different things.", "quantifier": "all texts, all lists of definitions", "why_tests_cant": "texts are unbounded; the parser is a recursive descent with ordered alternatives and fatal errors, and tests sample a few texts that are accepted or rejected", "anchors": ["flatdata-generator/flatdata/generator/grammar.py", "flatdata-generator/flatdata/generator/tree/builder.py:_build_node_tree"]}
{"id": "C102", "title": "Comments stay comments", "statement": "The comment of a declaration in a schema does not change the meaning of the generated code. In Python and Go all of it, whatever it is, is passed over as comment, and what follows it is read as if it were not there; the documentation string of a Python class is the comment to the letter. In C++ a comment of the schema is one comment of the header, unless it is a block comment with a backslash at the end of a line. In Rust it consists of comments and outer documentation comments, if each of its lines begins with *, /* or // or is empty (and it is no //! comment); for a comment of the usual form the documentation of the item is the list of its lines.", "quantifier": "all comments the parser can read (Python and Go: all texts), whatever follows them in the generated source", "why_tests_cant": "comments are arbitrary texts; tests use well-behaved ones, and generated code is only compared or compiled for a few schemas", "anchors": ["flatdata-generator/flatdata/generator/generators/python.py:to_python_doc", "flatdata-generator/flatdata/generator/generators/go.py:to_go_doc", "flatdata-generator/flatdata/generator/generators/rust.py:_rust_doc", "flatdata-generator/flatdata/generator/generators/cpp.py:cpp_doc"]}
{"id": "C103", "title": "The compiler accepts exactly the well-formed schemas", "statement": "Once its definitions have been merged into one tree, a schema is accepted exactly if it is well-formed: every reference means a node of the expected class, no two references of one definition mean the same node, no range name equals the name of a field, fields with ranges are not optional, structures with ranges are used by vectors only, the width of a field with an enumeration type is that of the enumeration, nothing depends on itself (an archive depends on every constant to which no field refers), constants have the type of the fields that refer to them and fit, and explicit references name a type of their resource. No other schema is rejected, none of these is accepted.", "quantifier": "all schemas (block lists with identifiers as in the grammar) whose definitions can be merged", "why_tests_cant": "tests give some schemas that are accepted and some that are rejected; that the passes reject nothing else needs all schemas", "anchors": ["flatdata-generator/flatdata/generator/tree/builder.py:build_ast", "flatdata-generator/flatdata/generator/tree/resolver.py:resolve_references", "flatdata-generator/flatdata/generator/tree/traversal.py:DfsTraversal"]}
{"id": "C104", "title": "What the inspector and the writer generate", "statement": "The engine behind the inspector and the JSON writer returns the class of an archive (or of a builder) for a name exactly if the schema is accepted, has only one outermost namespace (not counting those with builtin in their names) and an archive whose class is named after this namespace and the given name; for names without an underscore this is the archive declared directly in that namespace, so archives in nested namespaces are not found. The inspector opens a directory exactly if this holds for the schema stored in it and that class opens on the directory; if a class generated from the original schema opens the directory too, both show the same data.", "quantifier": "all accepted schemas, names, directories and directory listings", "why_tests_cant": "tests use a few schemas with one namespace; the property relates two independent compilations for all schemas and directories", "anchors": ["flatdata-generator/flatdata/generator/engine.py:render_python_module", "flatdata-generator/flatdata/generator/engine.py:_find_root_namespace", "flatdata-py/flatdata/lib/inspector.py:open_archive", "flatdata-py/flatdata/lib/flatdata_writer.py:Writer"]}
{"id": "C105", "title": "The field of an explicit reference is a field of its structure", "statement": "In an accepted schema every explicit reference names, with its fully qualified names, a structure and a field of this very structure: the path of the field is the path of the structure followed by the name of one of its fields, although structure and field are resolved one by one from relative names. This holds if no namespace lies in the path of a definition; otherwise the two names can lead to different structures.", "quantifier": "all schema texts that are accepted without a namespace inside a definition, and all explicit references in them", "why_tests_cant": "the names are resolved independently through all enclosing namespaces, so agreement must hold for every arrangement of namespaces and equally named definitions", "anchors": ["flatdata-generator/flatdata/generator/tree/nodes/explicit_reference.py:ExplicitReference", "flatdata-generator/flatdata/generator/tree/resolver.py:resolve_references"]}
{"id": "C106", "title": "A stored schema can be compiled, and means the same", "statement": "The schema text that is stored for a definition (next to every archive) is accepted by the generator as a source. In what is compiled from it, the definition and every definition it depends on are at the same paths and have the same meaning as in what was compiled from the original source: the same sizes, fields, offsets, widths, signs, values, resources and types; and it contains nothing else except the types of the indices of its multivectors. This holds if namespaces are not nested, all resources that are referred to belong to archives in the schema, and no resource has two explicit references that get the same name with full paths; without one of these the stored text is rejected.", "quantifier": "all accepted schema sources with these conditions, and all definitions in them", "why_tests_cant": "the text is printed from one tree and compiled again by resolving full names against what happens to be in the text; agreement must hold for every arrangement of definitions, references, constants and archives", "anchors": ["flatdata-generator/flatdata/generator/generators/flatdata.py:FlatdataGenerator", "flatdata-generator/flatdata/generator/tree/builder.py:build_ast", "flatdata-generator/flatdata/generator/tree/helpers/basictype.py", "flatdata-py/flatdata/lib/inspector.py:open_archive"]}
{"id": "C107", "title": "Stored schemas are fixpoints, so the inspector opens what generated classes open", "statement": "What is compiled from the schema text stored for a definition has exactly the same schema texts, for that definition, for every definition it depends on, and for the resources of archives among them; in particular storing its schema again gives the same text. The classes of archives generated from it are the classes generated from the original source, with the same schemas in all resources and sub-archives. So if a class generated from a source with one outermost namespace opens a directory, the inspector, which has only the directory, opens it as the same class and shows the same data. Besides the conditions of C106 and C60 this needs that no field has @optional before @const, and that archives list constants in the same order in both; otherwise texts may differ and the inspector may refuse the directory.", "quantifier": "all accepted schema sources with these conditions, all definitions in them, all directories", "why_tests_cant": "schemas are compared literally and the order of definitions in them comes from a traversal of a tree that was built in another order; equality has to hold for every graph of dependencies", "anchors": ["flatdata-generator/flatdata/generator/generators/flatdata.py:FlatdataGenerator", "flatdata-generator/flatdata/generator/tree/traversal.py:DfsTraversal", "flatdata-generator/flatdata/generator/tree/builder.py:build_ast", "flatdata-py/flatdata/lib/inspector.py:open_archive", "flatdata-py/flatdata/lib/archive.py:Archive"]}
{"id": "C108", "title": "Drawings show the schema", "statement": "The dot generator draws every accepted schema whose namespaces are not nested and whose groups of bound resources list no groups. The drawing has a subgraph for every namespace, every archive and, in the subgraph of its archive, every group and every resource that no group lists, labelled with its name, class and whether it is optional, and no other subgraph. The subgraph of a resource has a table for every type of the resource (for a group: the types of the resources it lists, in this order), with the name, type and width of every field, or an invisible node if it has no type. There is an edge for every explicit reference and every pair of places where its resource and the resource to which it refers are shown, and no other edge; it starts at the row of the referring field and ends at a node that is drawn in the subgraph of the resource to which it refers. If a group that is the target of a reference lists itself, nothing is drawn.", "quantifier": "all accepted schema sources with these conditions, all limits of recursion depth of at least two", "why_tests_cant": "identifiers of nodes, rows and subgraphs are computed separately where they are drawn and where edges use them; agreement has to hold for every arrangement of groups, references, multivectors and archives", "anchors": ["flatdata-generator/flatdata/generator/generators/dot.py:DotGenerator", "flatdata-generator/flatdata/generator/templates/dot/render.jinja2", "flatdata-generator/flatdata/generator/templates/dot/references.jinja2", "flatdata-generator/flatdata/generator/templates/dot/structure.jinja2", "flatdata-generator/flatdata/generator/tree/syntax_tree.py:binding_resources_or_self", "flatdata-generator/flatdata/generator/tree/nodes/resources/bound_resource.py:referenced_structures"]}
{"id": "C109", "title": "Sizes, closing and descriptions in Go", "statement": "For every archive that the generated Go code opens: GetSizeInBytes is the sum of the sizes of the data files of its resources and sub-archives (indices of multivectors are not counted). Close does not panic; afterwards the size is 0, no data of open resources is mapped, and closing again changes nothing; indices of multivectors stay mapped. ToString panics if any resource, optional or not, has no file; otherwise its text is valid JSON and describes every resource with its kind, number of elements, size in bytes, and the names, offsets, widths and signs of all fields. The text of a structure is valid JSON with the values of all fields.", "quantifier": "all directories, all archives (nested to any depth), all structures, positions and values", "why_tests_cant": "the text is put together from nested templates with separators between items, for any number of resources, types and fields; validity must hold for every archive and every combination of absent files", "anchors": ["flatdata-generator/flatdata/generator/templates/go/archive.jinja2", "flatdata-generator/flatdata/generator/templates/go/vector.jinja2", "flatdata-generator/flatdata/generator/templates/go/multivector.jinja2", "flatdata-generator/flatdata/generator/templates/go/instance.jinja2", "flatdata-generator/flatdata/generator/templates/go/rawdata.jinja2", "flatdata-generator/flatdata/generator/templates/go/structure.jinja2", "flatdata-generator/flatdata/generator/generators/go.py:to_go_case"]}
{"id": "C110", "title": "Slices and iterators in C++ agree with lists", "statement": "A C++ view of a vector behaves as the list of its elements. Indexing, front and back give its elements; slice, slice_before, slice_after, skip and skip_last, for positions inside of the view, show exactly the slice of the list. Iterators are positions: begin is the first, end is behind the last element; ++, --, += and -= move by the given number of elements, comparisons are those of positions, a loop from begin to end ends and visits every element once in order, a loop with reverse iterators visits them backwards. size_in_bytes is the memory of the view, and a view of that memory is the same view. The difference of an iterator and one that is not behind it is the number of elements between; the difference with one that is behind it is right exactly for structures of one byte. The description tells the size, except for empty views.", "quantifier": "all sizes of structures, all addresses, all lists of elements that fit the address space, all positions, offsets of both signs, slices of slices to any depth", "why_tests_cant": "sizes, addresses, positions and offsets are unbounded, and arithmetic mixes signed and unsigned 64-bit numbers that wrap around", "anchors": ["flatdata-cpp/include/flatdata/ArrayView.h", "flatdata-cpp/include/flatdata/internal/ArrayView.inl", "flatdata-cpp/include/flatdata/internal/ArrayViewIterator.h", "flatdata-cpp/include/flatdata/internal/ArrayViewIterator.inl"]}
{"id": "C111", "title": "Tables of strings are read the same in Python, Rust and C++", "statement": "If raw data is a table of strings without NUL, each followed by a zero byte, then at the position where a string begins Python's sub_str, Rust's substring and a C string made from C++'s char_ptr give exactly this string, whatever the strings, in any UTF-8; Python's sub_str_array from there gives it and the strings behind it, as many as asked for. A last string without a zero byte behind it is still given by Rust and C++, but Python's sub_str decodes its first byte only: it gives one letter, or fails.", "quantifier": "all lists of strings of all lengths, all positions in the list, all numbers asked for", "why_tests_cant": "strings, tables and positions are unbounded; that no byte of an encoded string is zero must hold for every character", "anchors": ["flatdata-py/flatdata/lib/resources.py:RawData.sub_str", "flatdata-py/flatdata/lib/resources.py:RawData.sub_str_array", "flatdata-rs/lib/src/rawdata.rs:substring", "flatdata-cpp/include/flatdata/MemoryDescriptor.h:char_ptr"]}
