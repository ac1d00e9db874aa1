{"id": "C01", "title": "Flatten keeps every byte and the length", "statement": "For a default (journaled) buffer with no stream attached, calling Flatten changes neither the length reported by LenBuf nor any byte that could be read before it; a hole that no write covers becomes zero; afterwards the journal of pending writes is empty and every multi-byte read is contiguous.", "quantifier": "every buffer state (any initial bytes, any journal of writes at any offsets, overlapping or not) and every byte offset", "why_tests_cant": "the journal is an arbitrary list of overlapping segments; tests flatten a handful of fixtures", "anchors": ["query/base/base.go: BaseImpl.Flatten, BaseImpl.FlattenWithLen, BaseImpl.LenBuf, BaseImpl.R"]}
{"id": "C02", "title": "Flatten keeps bytes that were loaded from a stream", "statement": "For a buffer opened on a reader, Flatten does not change any byte that was readable before it.", "quantifier": "every stream content, every set of segments already loaded, every offset", "why_tests_cant": "depends on which segments happened to be loaded beyond the initial capacity; fixtures are smaller than it", "anchors": ["query/base/base.go: BaseImpl.FlattenWithLen, BaseImpl.LenBuf, BaseImpl.readerR"]}
{"id": "C03", "title": "A positioned write is read back and touches nothing else", "statement": "After WriteAt(p, i), reading byte i+k returns p[k] for every k < len(p); every byte outside [i, i+len(p)) reads as before; the caller's slice is copied, so changing it afterwards has no effect; n = len(p) and no error is returned.", "quantifier": "every buffer state, every p, every i, every offset read afterwards", "why_tests_cant": "requires all overlaps of the new segment with an arbitrary journal", "anchors": ["query/base/base.go: BaseImpl.WriteAt, BaseImpl.R"]}
{"id": "C04", "title": "An update window replaces exactly its range", "statement": "Filling the window returned by U(off, size) on the default backend changes exactly the bytes off..off+size-1; all other bytes read as before, however existing segments were split.", "quantifier": "every buffer state, off, size, contents written", "why_tests_cant": "segment splitting has many cases (inside, at an edge, over spare capacity)", "anchors": ["query/base/base.go: BaseImpl.D, BaseImpl.U, BaseImpl.R"]}
{"id": "C05", "title": "Any editing history equals the byte-map semantics", "statement": "After any sequence of positioned writes, sequential writes, window updates, Flatten and Dedup calls on the default backend, every byte reads as the last write that covered it, or the initial byte.", "quantifier": "every initial content and every finite history of operations", "why_tests_cant": "unbounded histories", "anchors": ["query/base/base.go: BaseImpl.WriteAt, BaseImpl.Write, BaseImpl.U, BaseImpl.Flatten, BaseImpl.Dedup, BaseImpl.R"]}
{"id": "C06", "title": "Dedup is invisible to readers", "statement": "Dedup removes only segments completely covered by a later segment and never changes a readable byte nor LenBuf.", "quantifier": "every journal and every offset", "why_tests_cant": "arbitrary cover relations between segments", "anchors": ["query/base/base.go: BaseImpl.Dedup, Diff.Inner"]}
{"id": "C07", "title": "Merging journal segments is invisible to readers", "statement": "MergeDiffs never changes any readable byte.", "quantifier": "every journal and every offset", "why_tests_cant": "order inversions need three mutually placed segments; the test in the repo is disabled", "anchors": ["query/base/base.go: BaseImpl.MergeDiffs, BaseImpl.mergeDiffs, BaseImpl.mergeDiffsOf, Diff.MergeStable"]}
{"id": "C08", "title": "Merging terminates and leaves no mergeable pair", "statement": "MergeDiffs returns for every journal, never increases the number of segments, and in the result no two segments touch or overlap.", "quantifier": "every journal", "why_tests_cant": "termination and fixpoint over arbitrary lists", "anchors": ["query/base/base.go: BaseImpl.mergeDiffs, BaseImpl.mergeDiffsOf"]}
{"id": "C09", "title": "Two-segment merge is an overlay", "statement": "Diff.MergeStable(d, s) fails exactly when the two ranges neither overlap nor touch, and otherwise d covers the union of both ranges with s winning on the overlap.", "quantifier": "all pairs of segments", "why_tests_cant": "all relative placements and lengths, including empty segments", "anchors": ["query/base/base.go: Diff.MergeStable"]}
{"id": "C10", "title": "Interval predicates mean what they say", "statement": "Include, Included, Inner and Innerd of a segment agree with membership/containment of half-open byte ranges.", "quantifier": "all segments, offsets and sizes", "why_tests_cant": "boundary values", "anchors": ["query/base/base.go: Diff.Include, Diff.Included, Diff.Inner, Diff.Innerd"]}
{"id": "C11", "title": "A sized read returns current bytes", "statement": "R(off, Size(n)), when it returns at least n bytes, returns in its first n bytes the current values of the bytes off..off+n-1.", "quantifier": "every buffer state, off and n", "why_tests_cant": "a stale tail only shows when a later write starts inside the range", "anchors": ["query/base/base.go: BaseImpl.R, BaseImpl.writerR"]}
{"id": "C12", "title": "LenBuf is exact", "statement": "On the default backend no byte at or after LenBuf is readable, and if LenBuf > 0 it is the end of the initial bytes or of some segment.", "quantifier": "every buffer state", "why_tests_cant": "max over arbitrary lists", "anchors": ["query/base/base.go: BaseImpl.LenBuf"]}
{"id": "C13", "title": "Inserting space shifts the tail", "statement": "InsertSpace/InsertBuf at pos of size n: bytes before pos unchanged, n zero bytes at pos (when created), every byte at x>=pos moves to x+n; the source buffer object is not modified.", "quantifier": "every buffer state with any journal, every pos and n", "why_tests_cant": "segments straddling the insertion point in any number and order", "anchors": ["query/base/base.go: BaseImpl.insertBuf, BaseImpl.insertSpace"]}
{"id": "C14", "title": "Copy overwrites exactly the destination range", "statement": "Copy(src, srcOff, size, dst, 0) makes dst..dst+m-1 equal to the first m = min(size, available) source bytes and leaves all other bytes alone.", "quantifier": "every destination and flat source buffer, every offsets and size", "why_tests_cant": "arbitrary journals on both sides", "anchors": ["query/base/base.go: BaseImpl.Copy"]}
{"id": "C15", "title": "Copy with extension shifts the tail", "statement": "Copy(src, srcOff, size, dst, extend) first moves every byte at x >= dst to x+extend.", "quantifier": "every destination buffer, offsets, extend", "why_tests_cant": "needs segments straddling the destination offset", "anchors": ["query/base/base.go: BaseImpl.Copy"]}
{"id": "C16", "title": "Read and ReadAt obey the io contracts", "statement": "ReadAt(p, off) returns 0 <= n <= len(p) with p[:n] equal to the current bytes, and successive Read calls deliver the whole content in order without gaps.", "quantifier": "every buffer state, every buffer length, every call sequence", "why_tests_cant": "depends on buffer lengths versus segment tails", "anchors": ["query/base/base.go: BaseImpl.Read, BaseImpl.ReadAt"]}
{"id": "C17", "title": "Dup gives an independent copy", "statement": "After Dup, no later operation on either buffer changes any byte readable through the other (no stream attached).", "quantifier": "every buffer state, every later history on either side", "why_tests_cant": "aliasing between Go slices needs a memory model", "anchors": ["query/base/base.go: BaseImpl.Dup"]}
{"id": "C18", "title": "Slices handed out by the default backend are stable", "statement": "On the default backend, no WriteAt, D, U, C, Copy, Flatten, Dedup, MergeDiffs, insertSpace or Dup ever changes memory that existed before the call, so a slice obtained from R keeps its contents and a source passed to Copy is never modified.", "quantifier": "every memory state and every history", "why_tests_cant": "aliasing over the whole heap", "anchors": ["query/base/base.go: BaseImpl.WriteAt, BaseImpl.U, BaseImpl.Copy, BaseImpl.insertSpace"]}
{"id": "C19", "title": "Copied data does not track the source", "statement": "After dst.Copy(src, ...), later in-place updates of src are not visible through dst and vice versa.", "quantifier": "every backend, memory state, later history", "why_tests_cant": "needs aliasing", "anchors": ["query/base/base.go: BaseImpl.Copy", "query/base/directreader.go: NoLayer.U, NoLayer.Copy"]}
{"id": "C20", "title": "In-place backend updates exactly the window", "statement": "On the NoLayer backend, filling the window returned by U(off, size) changes exactly the bytes off..off+size-1.", "quantifier": "every buffer state, off, size", "why_tests_cant": "reordering of overlapping segments and capacity effects", "anchors": ["query/base/directreader.go: NoLayer.D, NoLayer.U, NoLayer.R"]}
{"id": "C21", "title": "In-place backend reads current bytes", "statement": "NoLayer.R(off) returns a non-empty slice whose first byte is the current byte whenever off is readable.", "quantifier": "every buffer state and off", "why_tests_cant": "boundary between segments", "anchors": ["query/base/directreader.go: NoLayer.R"]}
{"id": "C22", "title": "Two-layer backend preserves content", "statement": "Reading, writing and inserting space through the DoubleLayer backend have the same observable effect as through the default backend.", "quantifier": "every buffer state and operation", "why_tests_cant": "segment merging has many placements", "anchors": ["query/base/directreader.go: DoubleLayer.R, DoubleLayer.mergeDiffs, DoubleLayer.insertSpace", "query/base/base.go: Diff.Merge"]}
{"id": "C23", "title": "Buffer growth request is sufficient", "statement": "The capacity chosen for a stream load is a positive multiple of 4096 and at least the requested size.", "quantifier": "every request size", "why_tests_cant": "fails only for sizes above 16 MiB", "anchors": ["query/base/base.go: calcBufSize"]}
{"id": "C24", "title": "Loaded segments stay sorted and disjoint", "statement": "AddRDiff keeps the loaded segments sorted by offset and refuses a segment that overlaps an existing one.", "quantifier": "every segment list and new segment", "why_tests_cant": "arbitrary insert positions", "anchors": ["query/base/base.go: BaseImpl.AddRDiff"]}
{"id": "C25", "title": "A stream-backed buffer reads the stream", "statement": "For a buffer opened on a random-access reader, every byte read before end of stream equals the stream's byte, in whatever order reads happen; past the end of the stream nothing is returned.", "quantifier": "every stream content, every sequence of read offsets and sizes", "why_tests_cant": "load order, capacity boundary and EOF handling", "anchors": ["query/base/base.go: BaseImpl.readerR, BaseImpl.loadBuf", "query/base/io.go: ReaderAt.ReadAt"]}
{"id": "C26", "title": "A sequential stream is consumed in order", "statement": "For a buffer opened on a plain sequential reader, reads at increasing offsets return the stream's bytes.", "quantifier": "every stream and access sequence", "why_tests_cant": "needs more than one load", "anchors": ["query/base/io.go: ReaderAt.ReadAt, ReaderAt.Read, ReaderAt.origReadAt", "query/base/base.go: BaseImpl.loadBuf"]}
{"id": "C27", "title": "Chained Next reads consecutive messages", "statement": "Next(s1).Next(s2) on a stream-backed buffer reads from stream offset s1+s2.", "quantifier": "every stream, every skip amounts", "why_tests_cant": "third message needed", "anchors": ["query/base/base.go: BaseImpl.Next, NewBaseImplByIO, BaseImpl.parent, BaseImpl.readerR"]}
{"id": "C28", "title": "Segment list helpers", "statement": "insert places an element at an index and keeps all others in order; moveLast is a rotation that keeps all elements; minOffset returns the least offset satisfying the predicate.", "quantifier": "all lists, indices", "why_tests_cant": "all positions", "anchors": ["query/base/base.go: Diffs.insert, Diffs.moveLast, Diffs.minOffset"]}
{"id": "C29", "title": "Scalar encode/decode round trip", "statement": "For each scalar type T in {bool, int8..int64, uint8..uint64, float32, float64 as bit patterns}, FromT(v).T() == v, the encoding is little-endian two's complement and has exactly the declared size.", "quantifier": "every value of every scalar type", "why_tests_cant": "2^64 values", "anchors": ["query/base/node.go: Node.Int64, Node.Uint32, Node.Bool", "template/genny/union.go: FromInt64", "query/base/util.go: TypeToSize"]}
{"id": "C30", "title": "Every schema scalar type is classified as basic with its size", "statement": "Each scalar type name the schema parser can produce is classified as a basic type and has the size flatbuffers prescribes.", "quantifier": "every type name of the grammar", "why_tests_cant": "tests use a few types", "anchors": ["query/base/util.go: NameToType, TypeToGroup, TypeToSize, GetTypeGroup", "fbsparser/fbs.peg: type"]}
{"id": "C31", "title": "A table or struct name is never classified as basic", "statement": "GetTypeGroup of a user-defined type name returns table/struct/union, never a basic type, and never panics.", "quantifier": "every identifier", "why_tests_cant": "depends on the spelling of the name", "anchors": ["query/base/util.go: GetTypeGroup"]}
{"id": "C32", "title": "Symbol interning is a bijection", "statement": "AddName is idempotent; Symbol and SymbolToString are inverse on registered names; registering further names never changes existing symbols.", "quantifier": "every sequence of registrations", "why_tests_cant": "unbounded histories", "anchors": ["query/base/util.go: AddName, Symbol, SymbolToString"]}
{"id": "C33", "title": "Field symbols decode to their names", "statement": "SymbolToNames(NodeFieldSynmbol(node, field)) returns (node, field) for registered names; an unregistered name is an error.", "quantifier": "every registry and every pair of names", "why_tests_cant": "overflow above 65535 names; unsigned comparison", "anchors": ["query/base/util.go: NodeFieldSynmbol, SymbolToNames"]}
{"id": "C34", "title": "A fresh table has no fields", "statement": "The buffer of a newly created table is a well-formed empty flatbuffers table: vtable length, table length and offset are right, and every field reads as absent.", "quantifier": "every schema table with any number of fields", "why_tests_cant": "number of fields is unbounded", "anchors": ["query/base/common.go: CommonNode.Init", "query/base/node.go: Node.VirtualTable, Node.VirtualTableIsZero"]}
{"id": "C35", "title": "Scalar fields keep what was last set", "statement": "On a fresh table, after any sequence of SetFieldAt calls with scalar values, each field reads the last value set for it, and fields never set read as absent.", "quantifier": "every table schema, every sequence of settings", "why_tests_cant": "unbounded sequences, every order of first settings", "anchors": ["query/base/common.go: CommonNode.SetFieldAt, CommonNode.insertVTable, CommonNode.FieldAt"]}
{"id": "C36", "title": "Setting one variable-length field keeps the others", "statement": "After SetFieldAt of a string/vector/table field, all previously set fields still read their values.", "quantifier": "every table schema and every order of settings", "why_tests_cant": "needs two variable-length fields", "anchors": ["query/base/common.go: CommonNode.SetFieldAt, CommonNode.insertVTable, CommonNode.movePos"]}
{"id": "C37", "title": "Wrong-typed or out-of-range settings are refused", "statement": "SetFieldAt with an index outside the table, a negative index, or a value whose type name differs from the declared type returns an error and does not change the buffer.", "quantifier": "every schema, index, value, buffer", "why_tests_cant": "all mismatches", "anchors": ["query/base/common.go: CommonNode.SetFieldAt, CommonNode.IsSameType"]}
{"id": "C38", "title": "Field access follows the flatbuffers layout", "statement": "For a table in a conforming flatbuffer whose vtable precedes it, a field whose slot is inside the vtable is read at table+voffset and reported absent iff the voffset is 0.", "quantifier": "every byte buffer, table position and slot", "why_tests_cant": "every encodable buffer", "anchors": ["query/base/node.go: Node.VirtualTable, Node.VirtualTableIsZero, Node.Table"]}
{"id": "C39", "title": "Fields beyond a shortened vtable are absent", "statement": "If a table's vtable is shorter than the schema (older writer or trimmed trailing defaults), the missing fields read as absent.", "quantifier": "every conforming buffer and slot", "why_tests_cant": "flatbuffers writers trim vtables only for trailing defaults", "anchors": ["query/base/node.go: Node.VirtualTable"]}
{"id": "C40", "title": "Shared vtables are supported", "statement": "A table whose vtable is stored after it (negative soffset, as flatbuffers builders produce when deduplicating) is read without panic.", "quantifier": "every conforming buffer", "why_tests_cant": "deduplication depends on alignment", "anchors": ["query/base/node.go: Node.preLoadVtable, Node.VirtualTable"]}
{"id": "C41", "title": "Struct fields are read at their flatbuffers offsets", "statement": "FieldAt(i) of a struct addresses the bytes flatbuffers assigns to field i (natural alignment).", "quantifier": "every struct schema", "why_tests_cant": "padding only appears for some field orders", "anchors": ["query/base/common.go: CommonNode.FieldAt, CommonNode.Info"]}
{"id": "C42", "title": "Struct value info describes the requested field", "statement": "ValueInfo(i) on a struct returns position and size of field i.", "quantifier": "every struct schema and i", "why_tests_cant": "off-by-one in all indices", "anchors": ["query/base/common.go: CommonNode.ValueInfo, CommonNode.ValueInfoPos"]}
{"id": "C43", "title": "Message length is aligned and sufficient", "statement": "Len() is a multiple of 8, at least the end of the root's data and less than 8 bytes more.", "quantifier": "every position/size", "why_tests_cant": "all residues", "anchors": ["query/base/common.go: CommonNode.Len, CommonNode.Info"]}
{"id": "C44", "title": "Union access selects the declared member", "statement": "FollowUnion returns the alias number (type byte - 1), and nil exactly when the type byte is 0 or larger than the number of members.", "quantifier": "every type byte and alias list", "why_tests_cant": "256 bytes times lists", "anchors": ["query/base/common.go: CommonNode.FollowUnion"]}
{"id": "C45", "title": "Node equality is an equivalence", "statement": "Equal is reflexive and symmetric on lists of nodes.", "quantifier": "all pairs of lists", "why_tests_cant": "needs prefix lists", "anchors": ["query/base/common.go: CommonNode.Equal"]}
{"id": "C46", "title": "List index errors", "statement": "At(i) returns an error exactly when i < 0 or i >= Count(), and never reads outside the list.", "quantifier": "every list and index", "why_tests_cant": "all boundaries", "anchors": ["query/base/list.go: List.At"]}
{"id": "C47", "title": "Struct/scalar list equals an array", "statement": "Starting from an empty list, after any sequence of SetAt calls at existing indices or at the end, Count and At agree with the array obtained by the same operations; other indices are refused.", "quantifier": "every element size, every history", "why_tests_cant": "unbounded histories", "anchors": ["query/base/list.go: List.InitList, List.setStructAt, List.At", "query/base/base.go: BaseImpl.Copy"]}
{"id": "C48", "title": "Table list equals an array", "statement": "Starting from an empty list, after any sequence of SetAt appends of tables, Count and At(i) agree with the array of elements.", "quantifier": "every history of appended tables of any sizes", "why_tests_cant": "offset fix-ups over unbounded histories", "anchors": ["query/base/list.go: List.setTableAt, List.updateOffsetToTable, List.At"]}
{"id": "C49", "title": "Swap exchanges two elements", "statement": "SwapAt(i, j) on a table list exchanges the two elements and leaves all others; indices outside the list leave it unchanged.", "quantifier": "every table list in a buffer, every i, j", "why_tests_cant": "offsets are relative to their slot; all pairs", "anchors": ["query/base/list.go: List.SwapAt"]}
{"id": "C50", "title": "Swap works on struct and scalar lists with the default backend", "statement": "SwapAt(i, j) exchanges elements i and j of a struct or scalar list.", "quantifier": "every list and indices", "why_tests_cant": "tests use only the in-place backend", "anchors": ["query/base/list.go: List.SwapAt", "query/base/base.go: BaseImpl.U"]}
{"id": "C51", "title": "Sorting permutes", "statement": "Any sequence of SwapAt calls (as made by SortBy through sort.Sort) leaves the list a permutation of its elements.", "quantifier": "every sequence of swaps", "why_tests_cant": "unbounded sequences", "anchors": ["query/base/list.go: List.SortBy, List.SwapAt"]}
{"id": "C52", "title": "SearchIndex finds the first match", "statement": "For a predicate that is false then true along the list, SearchIndex(n, f) returns the least index satisfying it, or n; for any predicate it calls f only at indices in [0,n) and terminates with a result in [0,n].", "quantifier": "every n and predicate", "why_tests_cant": "all n", "anchors": ["query/base/list.go: List.SearchIndex"]}
{"id": "C53", "title": "Select, Find and All", "statement": "Select(f) returns exactly the elements satisfying f in list order; Find returns the first of them or nil; All returns every element.", "quantifier": "every list and predicate", "why_tests_cant": "all predicates", "anchors": ["query/base/list.go: List.Select, List.Find, List.All"]}
{"id": "C54", "title": "Sub-list by range", "statement": "New(OptRange(a,b)) yields the elements a..b; ranges outside the list are refused.", "quantifier": "every list and range", "why_tests_cant": "all boundaries", "anchors": ["query/base/list.go: List.New, OptRange"]}
{"id": "C55", "title": "Adding lists concatenates", "statement": "l.Add(m) yields a list whose elements are those of l followed by those of m.", "quantifier": "every pair of lists", "why_tests_cant": "offset arithmetic for arbitrary lengths", "anchors": ["query/base/list.go: List.Add, List.addTableList, List.addStructList"]}
{"id": "C56", "title": "Byte list round trip", "statement": "FromByteList(s) read back with Bytes() gives s and Count() gives len(s).", "quantifier": "every byte string shorter than 2^32", "why_tests_cant": "all lengths", "anchors": ["query/base/list.go: FromByteList", "query/base/node.go: Node.Bytes"]}
{"id": "C57", "title": "Tree search delivers every match exactly once", "statement": "For a consumer that drains the channel, FindTree yields exactly the matching descendants in depth-first order, then the channel is closed, under every interleaving of producer and consumer.", "quantifier": "every tree, predicate, schedule", "why_tests_cant": "schedules", "anchors": ["query/base/common.go: Tree.FindTree, Tree.findtree"]}
{"id": "C58", "title": "Abandoning a tree search does not block", "statement": "A consumer that stops reading the FindTree channel early does not leave the producer blocked forever.", "quantifier": "every tree and schedule", "why_tests_cant": "needs more than 10 matches", "anchors": ["query/base/common.go: Tree.FindTree"]}
{"id": "C59", "title": "Dumping never blocks the caller", "statement": "Histories.Dump never blocks.", "quantifier": "every number of calls and schedule", "why_tests_cant": "needs more than 100 entries", "anchors": ["query/dump/histories.go: Histories.Dump"]}
{"id": "C60", "title": "Streaming output is ordered and complete", "statement": "With StreamOut started before Dump, after Finish the output contains each dumped entry exactly once, in order.", "quantifier": "every number of entries and schedule", "why_tests_cant": "schedules", "anchors": ["query/dump/histories.go: Histories.StreamOut, Histories.Finish"]}
{"id": "C61", "title": "Disabled log levels cost nothing and print nothing", "statement": "Log(level, fn) calls fn and prints iff level <= CurrentLogLevel (and output is enabled).", "quantifier": "every level setting", "why_tests_cant": "all levels", "anchors": ["query/base/base.go: Log", "query/log/error.go: Log"]}
{"id": "C62", "title": "Filtered logging reaches the log writer", "statement": "Log2 output enabled by its filter is written to the configured log writer and the level is restored.", "quantifier": "every filter, writer state", "why_tests_cant": "output is captured internally", "anchors": ["query/base/log.go: Log2, neoLog"]}
{"id": "C63", "title": "Inspection length is order independent", "statement": "The total length and every nested length computed by GetFbsInfo do not depend on map iteration order and cover every value.", "quantifier": "every nesting and iteration order", "why_tests_cant": "Go map order is random", "anchors": ["info/info.go: GetFbsInfo"]}
{"id": "C64", "title": "Field numbering matches flatbuffers slots", "statement": "After parsing, field number k of a table is the flatbuffers vtable slot of that field: each union field takes two slots, every other field one.", "quantifier": "every schema", "why_tests_cant": "every order of union and plain fields", "anchors": ["fbsparser/parser.go: Fbs.FinilizeForFbs"]}
{"id": "C65", "title": "Identifier conversion is total", "statement": "Converting a schema identifier to a Go name never panics.", "quantifier": "every identifier allowed by the grammar", "why_tests_cant": "leading/double underscores", "anchors": ["fbsparser/parser.go: toCamelCase"]}
{"id": "C66", "title": "Schema parsing round trip", "statement": "Printing a schema (tables, structs, unions, root type) and parsing it returns the same declarations.", "quantifier": "every schema in the printable class", "why_tests_cant": "unbounded schemas", "anchors": ["fbsparser/fbs.peg", "fbsparser/parser.go"]}
{"id": "C67", "title": "User type names are not confused with built-in types", "statement": "A field whose type name merely starts with a built-in type name is parsed as that user type.", "quantifier": "every identifier", "why_tests_cant": "only some prefixes", "anchors": ["fbsparser/fbs.peg: type"]}
{"id": "C68", "title": "Generated commands cover each field once with its slot", "statement": "The generator emits exactly one command per table field, numbered with its slot and one per table/union/list type.", "quantifier": "every schema", "why_tests_cant": "unbounded", "anchors": ["cmd/fbs-query/main.go: MakeGenGennies"]}
{"id": "C69", "title": "Generated files do not overwrite each other", "statement": "All output files named by the generator's commands are distinct.", "quantifier": "every schema", "why_tests_cant": "needs name pairs that coincide after conversion", "anchors": ["cmd/fbs-query/main.go: MakeGenGennies"]}
{"id": "C70", "title": "Scalar fields get scalar accessors", "statement": "A field of a built-in scalar type gets the result type CommonNode, a vector of such a type gets List.", "quantifier": "every built-in type", "why_tests_cant": "only some types are used in the tests", "anchors": ["cmd/fbs-query/main.go: MakeGenGennies", "query/base/util.go: NameToType"]}
{"id": "C71", "title": "Layout is free", "statement": "Blanks, line ends and comments may appear between any two tokens of a schema without changing what is parsed.", "quantifier": "every layout at every position", "why_tests_cant": "unbounded", "anchors": ["fbsparser/fbs.peg"]}
{"id": "C72", "title": "Every scalar default value is accepted", "statement": "A field may have any integer, fractional or boolean default value.", "quantifier": "every default value", "why_tests_cant": "unbounded", "anchors": ["fbsparser/fbs.peg: scalar"]}
{"id": "C73", "title": "Enums do not disturb tables", "statement": "An enum declaration is accepted and does not change the fields of any table or struct.", "quantifier": "every enum", "why_tests_cant": "unbounded", "anchors": ["fbsparser/fbs.peg: enum_decl", "fbsparser/parser.go: NewExtractField"]}
{"id": "C74", "title": "Equal compares list contents", "statement": "Equal on two lists of the same length is true only if their elements are equal.", "quantifier": "all pairs of lists", "why_tests_cant": "all contents", "anchors": ["query/base/common.go: CommonNode.Equal"]}
{"id": "C75", "title": "Equal on tables is equality of fields", "statement": "For two tables of the same type, Equal never panics and is true exactly when every field is absent in both or has the same value in both.", "quantifier": "all pairs of tables", "why_tests_cant": "unbounded combinations of absent fields", "anchors": ["query/base/common.go: CommonNode.Equal, CommonNode.FieldAt"]}
{"id": "C76", "title": "Replacing a range writes exactly the range", "statement": "C(off, size, src) makes the bytes off..off+size read as the first size bytes of src, changes no other byte, grows the length only to off+size, and panics exactly when src has no room for size bytes.", "quantifier": "every journal state, offset, size, source", "why_tests_cant": "depends on which pending writes overlap the range", "anchors": ["query/base/base.go: BaseImpl.C, BaseImpl.D"]}
{"id": "C77", "title": "Buffer comparison is sound", "statement": "Equal on buffers is an equivalence; equal buffers have the same bytes and length; a duplicate is equal to its origin; buffers with the same bytes and length are equal.", "quantifier": "all pairs of buffers", "why_tests_cant": "all journal states", "anchors": ["query/base/base.go: BaseImpl.Equal, Diff.Equal, BaseImpl.Dup"]}
{"id": "C78", "title": "BufInfo reports the extent of the buffer", "statement": "BufInfo()[0] is length and capacity of the initial bytes; BufInfo()[1].Len is LenBuf, and BufInfo()[1].Cap the largest end of any capacity.", "quantifier": "every journal state", "why_tests_cant": "all journal states", "anchors": ["query/base/base.go: BaseImpl.BufInfo"]}
{"id": "C79", "title": "Union members are numbered in registration order", "statement": "After any sequence of SetAlias calls the members of each union are listed in the order of the calls for it, independent of calls for other unions, and IsUnionName holds exactly for registered unions.", "quantifier": "every sequence of registrations", "why_tests_cant": "unbounded sequences", "anchors": ["query/base/util.go: SetAlias, IsUnionName"]}
{"id": "C80", "title": "Generated accessors return declared types", "statement": "The result type of every generated field accessor is a type declared by the generated package.", "quantifier": "every schema whose field types are declared", "why_tests_cant": "unbounded schemas", "anchors": ["cmd/fbs-query/main.go: MakeGenGennies, ConvResultType, IsSlice, IsBasicTypeSlice"]}
{"id": "C81", "title": "A finished table is a flatbuffers message", "statement": "After Init, settings, WithHeader and Flatten, the bytes returned by R(0) are a flatbuffers message: a root offset to a table with its vtable, in which every field set is found with the value last set and every other field is absent.", "quantifier": "every table type and sequence of settings", "why_tests_cant": "unbounded sequences; other readers of the bytes", "anchors": ["template/genny/root.go: Root.WithHeader", "query/base/common.go: CommonNode.Init, CommonNode.SetFieldAt", "query/base/base.go: BaseImpl.Flatten"]}
{"id": "C82", "title": "Write, finish, open, read", "statement": "Opening the bytes of a finished table gives a root whose fields read as the values last set; finishing an opened message leaves its bytes unchanged.", "quantifier": "every table type and sequence of settings", "why_tests_cant": "unbounded sequences", "anchors": ["query/base/common.go: Open, OpenByBuf", "template/genny/root.go: Root.Open, Root.WithHeader"]}
{"id": "C83", "title": "Typed setters write their field and nothing else", "statement": "SetBool..SetFloat64 on the handle of a field of that type succeeds, the handle and the table then read the value given, every other field is unchanged; on a handle of another type it returns an error and changes nothing.", "quantifier": "every handle, value and program of settings", "why_tests_cant": "unbounded programs", "anchors": ["query/base/common.go: CommonNode.SetBool .. CommonNode.SetFloat64"]}
{"id": "C84", "title": "Inserting bytes keeps a table readable", "statement": "After InsertBuf or InsertSpace at a position in front of, behind or inside a table not yet in a message, the handle still reads every field of the table.", "quantifier": "every table, position and size", "why_tests_cant": "all positions", "anchors": ["query/base/common.go: CommonNode.InsertBuf, CommonNode.InsertSpace"]}
{"id": "C85", "title": "Reading a field leaves the table alone", "statement": "The generated accessor of a field returns the field if it is present; after calling it, present or not, every field of the table reads as before.", "quantifier": "every table, field and field type", "why_tests_cant": "accessors of absent fields write to the table", "anchors": ["template/genny/field.go: NodeName.FieldName"]}
{"id": "C86", "title": "Messages following each other in memory", "statement": "For a buffer holding several messages one after the other, HasNext is true exactly when another message follows and Next delivers it.", "quantifier": "every buffer", "why_tests_cant": "all lengths and alignments", "anchors": ["template/genny/root.go: Root.HasNext, Root.Next", "query/base/base.go: BaseImpl.Next"]}
{"id": "C87", "title": "Generated Equal is equality of fields", "statement": "The Equal generated for a table type is true exactly when every field of the two tables is equal.", "quantifier": "all pairs of tables of a type", "why_tests_cant": "all contents", "anchors": ["template/genny/node.go: NodeName.Equal, NodeName.CountOfField"]}
{"id": "C88", "title": "Registration order does not matter", "statement": "After all types have been registered and ApplyRequestNameFields has run, every field has its declared type, number and type group, whatever the order of the registrations; registration never panics.", "quantifier": "every history of registrations", "why_tests_cant": "Go orders package initialisation by file name", "anchors": ["query/base/util.go: SetNameIsStrunct, SetAlias, RequestSettingNameFields, ApplyRequestNameFields, GetTypeGroup", "template/genny/node.go: SetNodeNameFields"]}
{"id": "C89", "title": "Types seen by nodes are those of the schema", "statement": "For every schema, initialising the generated files in any order makes nodes see exactly the declared tables and structs with their fields at their flatbuffers slots, and the unions with their members in order.", "quantifier": "every schema and order of initialisation", "why_tests_cant": "unbounded schemas", "anchors": ["cmd/fbs-query/main.go: MakeGenGennies", "template/genny/node.go: SetNodeNameFields", "template/genny/field.go", "template/genny/union-alias.go", "fbsparser/parser.go"]}
{"id": "C90", "title": "Writing list data elsewhere keeps the list", "statement": "After SetDataWriter and WriteDataAll, the count and offsets in memory followed by what was written are exactly the bytes of the list, and tables appended with SetAt afterwards extend both so that together they still read as the array.", "quantifier": "every list of tables, program of appends and writer", "why_tests_cant": "unbounded lists, all kinds of writers", "anchors": ["query/base/list.go: CommonList.SetDataWriter, CommonList.WriteDataAll, CommonList.SetAt, CommonList.WriteElm"]}
{"id": "C91", "title": "Adding lists with data elsewhere concatenates them", "statement": "Add of two lists of tables whose data is written elsewhere returns a list whose count, offsets and data read as the concatenation, and which can be used further like any other.", "quantifier": "every pair of such lists", "why_tests_cant": "unbounded lists and programs", "anchors": ["query/base/list.go: CommonList.Add"]}
{"id": "C92", "title": "Len is the length of the message, aligned", "statement": "Len of the root of a finished message is the number of bytes of the message rounded up to a multiple of 8.", "quantifier": "every finished message", "why_tests_cant": "all combinations of present and absent fields", "anchors": ["query/base/common.go: CommonNode.Len, CommonNode.Info"]}
{"id": "C93", "title": "In-place insertion makes the space exist", "statement": "Inserting space through the NoLayer backend gives the buffer the default backend gives, with a zero-filled segment for the space whenever the buffer would otherwise end before the end of the space; afterwards the space lies inside the buffer.", "quantifier": "every buffer state, position and size", "why_tests_cant": "all placements of segments and ends", "anchors": ["query/base/directreader.go: NoLayer.insertSpace"]}
{"id": "C94", "title": "Structs read as set", "statement": "A struct made by Init has all fields zero; each SetFieldAt succeeds; every field then reads the value last set for it, or zero; stored in a table field the struct reads the same from there.", "quantifier": "every struct type and sequence of settings", "why_tests_cant": "unbounded sequences; the journal depends on their order", "anchors": ["query/base/common.go: CommonNode.Init, CommonNode.SetFieldAt, CommonNode.FieldAt"]}
{"id": "C95", "title": "The walk over a message visits everything in it", "statement": "TraverseInfo calls its function for every scalar, byte vector and struct member of every table and struct reached from the root and for every struct, table, union, list and list element present, saying where the owner and the thing itself are, and for nothing else; absent fields do not disturb it.", "quantifier": "every message", "why_tests_cant": "unbounded nesting, all combinations of absent fields", "anchors": ["query/base/common.go: CommonNode.TraverseInfo, CommonNode.TraverseInfoSlice, CommonNode.IsLeafAt"]}
{"id": "C96", "title": "AllTree puts every tree under its owner", "statement": "AllTree makes one tree for each thing visited, and the parent of each tree is the tree of its owner.", "quantifier": "every message", "why_tests_cant": "unbounded nesting; owners are found by position", "anchors": ["query/base/common.go: CommonNode.AllTree, Tree.Pos, Tree.Parent"]}
{"id": "C97", "title": "Editing an opened message", "statement": "After opening a message, setting fields of the root or of any table in it, and saving it, any number of times, every field of every table reads the value last set for it, and what was not set reads as before.", "quantifier": "every message, program of settings and number of sessions", "why_tests_cant": "what lies behind the place of insertion has to be moved, and its owners found", "anchors": ["query/base/common.go: CommonNode.InsertSpace, CommonNode.InRoot, CommonNode.RootCommon, CommonNode.movePos, CommonNode.SetFieldAt", "template/genny/root.go: Root.WithHeader"]}
{"id": "C98", "title": "Unmarshal fills a Go struct from a table", "statement": "Unmarshal into a pointer to a struct gives every field whose fbs tag is the name of a scalar or vector field of the table the value of that field (zero or empty if it is absent), and leaves every other Go field alone; anything but a pointer to a struct is refused with an error.", "quantifier": "every table, Go struct and tags", "why_tests_cant": "all combinations of absent fields and types", "anchors": ["query/base/common.go: CommonNode.Unmarshal", "query/base/node.go: Node.unmarshal"]}
{"id": "C99", "title": "Generated lists give the elements of the list", "statement": "At, AtWihoutError, First, Last, All, Select, Find, Search and SearchIndex of a generated list give the elements the list has, in order; Find and Search give nil, SearchIndex -1, if there is no such element.", "quantifier": "every list and condition", "why_tests_cant": "unbounded lists", "anchors": ["template/genny/list.go: NodeNameList.At .. NodeNameList.SearchIndex"]}
{"id": "C100", "title": "A message uses the backend it is opened with", "statement": "Open with SetDefaultBase(name) gives a message with the backend of that name, Open without an option one with the default backend, whatever was opened before.", "quantifier": "every history of Open calls", "why_tests_cant": "global state, unbounded histories", "anchors": ["query/base/option.go: SetDefaultBase", "query/base/common.go: Open, OpenByBuf"]}
{"id": "C101", "title": "The root of a node", "statement": "Root and RootCommon of any node of an opened message give the root of that message, and IsRoot holds exactly for it, whatever messages the program opened before.", "quantifier": "every message and history of opened messages", "why_tests_cant": "global state, unbounded histories", "anchors": ["query/base/util.go: SetRootName", "query/base/common.go: CommonNode.RootCommon, CommonNode.IsRoot", "template/genny/node.go: NodeName.Root", "template/genny/root.go: toRoot"]}
{"id": "C102", "title": "Setting a union selects its member", "statement": "After setting a union field to a table of one of its members, CanFollow says that there is a member, FollowUnion gives that table, and the accessor of that member gives the same.", "quantifier": "every table with a union, every member", "why_tests_cant": "all programs of settings", "anchors": ["template/genny/union-alias.go", "query/base/common.go: CommonNode.CanFollow, CommonNode.FollowUnion"]}
{"id": "C103", "title": "Both ways to move the offsets of a list agree", "statement": "oldMovOffToTable and movOffToTable leave the same bytes in the buffer, for every list of tables and every distance.", "quantifier": "every list, buffer state and distance", "why_tests_cant": "unbounded lists, all states of the journal", "anchors": ["query/base/list.go: CommonNode.movOffToTable, CommonNode.oldMovOffToTable"]}
{"id": "C104", "title": "SearchInfo reports everything that satisfies the condition", "statement": "SearchInfo calls its function for every node reached through nodes whose extent satisfies the condition and for every leaf of such a node that satisfies it, and for nothing else; absent fields do not disturb it.", "quantifier": "every message and condition", "why_tests_cant": "unbounded nesting, all conditions", "anchors": ["query/base/common.go: CommonNode.SearchInfo", "query/base/list.go: CommonNode.SearchInfoSlice"]}
{"id": "C105", "title": "Values of any depth survive writing and reading", "statement": "A value made of tables, union members, byte vectors and lists of tables inside each other to any depth, built from the inside out by Init, SetFieldAt and SetAt, reads as built; finished with WithHeader and opened with OpenByBuf it reads the same again, at every depth, and the bytes are a flatbuffers message with the contents of the value.", "quantifier": "every value of every depth, every schema", "why_tests_cant": "unbounded nesting and unbounded lists", "anchors": ["query/base/common.go: CommonNode.Init, CommonNode.SetFieldAt, CommonNode.FieldAt, CommonNode.FollowUnion, CommonNode.Info, OpenByBuf", "query/base/list.go: CommonNode.SetAt, CommonNode.At", "template/genny/root.go: Root.WithHeader"]}
{"id": "C106", "title": "FindTree delivers every tree that satisfies the condition", "statement": "FindTree, called on the result of AllTree, delivers every tree below the first that satisfies the condition, each exactly once, and nothing else.", "quantifier": "every message and condition", "why_tests_cant": "unbounded nesting; parents are found by position", "anchors": ["query/base/common.go: CommonNode.FindTree, findtree, CommonNode.AllTree"]}
{"id": "C107", "title": "Lists go on being arrays after elements were exchanged", "statement": "After any sequence of SwapAt calls a list of tables can be used as any other: appending to it, exchanging again, adding another list to it, adding it to another list, taking a sub-list and appending to that give what the same operations on an array give.", "quantifier": "every program of SwapAt, SetAt, Add and New(OptRange) calls, every element of every depth", "why_tests_cant": "unbounded programs; the place of the elements no longer follows their order", "anchors": ["query/base/list.go: CommonNode.SwapAt, CommonNode.SetAt, CommonNode.New, CommonNode.add, CommonNode.InfoSlice"]}
{"id": "C108", "title": "Trees say where things lie and how long they are", "statement": "For every tree AllTree makes, Tree.Pos is where the bytes of its thing begin and Tree.Size is how many bytes it has.", "quantifier": "every message", "why_tests_cant": "unbounded nesting, every kind of field", "anchors": ["query/base/common.go: Tree.Pos, Tree.Size, CommonNode.AllTree, CommonNode.FieldAt"]}
{"id": "C109", "title": "SortBy sorts and keeps the elements", "statement": "SortBy with a function comparing elements leaves the list with the same elements in an order in which no element is less than one before it; IsSorted with that function then is true, and is true exactly of lists in such an order; SearchIndex on the sorted list finds the first element satisfying a condition that holds of all greater ones; the list can be used on like any other. What is not a list is refused and unchanged.", "quantifier": "every list, however made, every comparison that is a strict weak order, every algorithm of package sort", "why_tests_cant": "unbounded lists and algorithms; exchanges rewrite relative offsets in place", "anchors": ["query/base/list.go: List.SortBy, List.IsSorted, List.Swap, List.Less, List.Len, List.SearchIndex"]}
{"id": "C110", "title": "Looking at a buffer comes to an end", "statement": "For every contents of a buffer, Info, InfoSlice, TraverseInfo, AllTree and SearchInfo return or panic after a number of nested calls bounded by the length of the buffer; they never recurse for ever.", "quantifier": "every buffer contents, also of no message at all, every node, every schema", "why_tests_cant": "all byte strings, every nesting", "anchors": ["query/base/common.go: CommonNode.Info, CommonNode.ValueInfo, CommonNode.TraverseInfo, CommonNode.AllTree, CommonNode.SearchInfo", "query/base/list.go: CommonNode.InfoSlice, CommonNode.SearchInfoSlice"]}
{"id": "C111", "title": "A message in a stream reads as in memory", "statement": "Open on a reader delivering a well-formed message, followed by any program of FieldAt, FollowUnion, At, Count, number and byte-vector accessor calls on the nodes obtained, gives what OpenByBuf on the bytes of the message followed by the same calls gives; so does any other program that reads the buffer.", "quantifier": "every message, schema, capacity and program of calls", "why_tests_cant": "what is loaded, and how far the buffer seems to reach, depends on all earlier reads", "anchors": ["query/base/common.go: Open, CommonNode.FieldAt, CommonNode.FollowUnion", "query/base/node.go: NewNode, Node.preLoadVtable, Node.VirtualTable, Node.Table, Node.Bytes, Node.Int8", "query/base/list.go: CommonNode.At, CommonNode.Count", "query/base/base.go: BaseImpl.R, BaseImpl.readerR, BaseImpl.loadBuf"]}
{"id": "C112", "title": "Handles of one message agree", "statement": "Nodes obtained from a node of a message by FieldAt, FollowUnion and At, and nodes obtained from these, are views of one message: after any sequence of SetFieldAt calls through any of them, every one of them, however old, reads its table as last set, RootCommon of every one gives the message with everything that was set, and so does saving through any of them.", "quantifier": "every message, every set of nodes and order of settings", "why_tests_cant": "unbounded sequences; nodes share buffers, and some settings replace the buffer", "anchors": ["query/base/common.go: CommonNode.SetFieldAt, CommonNode.FieldAt, CommonNode.FollowUnion, CommonNode.InsertSpace, CommonNode.RootCommon", "query/base/list.go: CommonNode.At", "query/base/base.go: BaseImpl.Copy, BaseImpl.insertSpace"]}
{"id": "C113", "title": "A node can be used again", "statement": "A node that has been appended to a list with SetAt or stored in a field with SetFieldAt can be changed and be appended or stored again: each time what is stored is the value the node has then, exactly as if a new node had been made for it.", "quantifier": "every program that sets fields of a node and stores it, any number of times", "why_tests_cant": "unbounded programs; the calls leave a size behind in the node", "anchors": ["query/base/common.go: CommonNode.SetFieldAt", "query/base/list.go: CommonNode.setTableAt, CommonNode.setStructAt"]}
{"id": "C114", "title": "A schema that is not accepted is not generated from", "statement": "The parser accepts exactly the texts of the grammar, and what it then hands to the generator are the declarations of the text, untouched by alternatives it tried and gave up. If the schema file cannot be read or is not accepted, fbs-query ends without generating anything.", "quantifier": "every text", "why_tests_cant": "unbounded texts; abandoned alternatives leave tokens behind in a shared array", "anchors": ["fbsparser/fbs.peg.go: Parser.Init, Parser.Parse, Parser.Execute, tokens32.Add, tokens32.trim", "cmd/fbs-query/main.go: main"]}
{"id": "C115", "title": "The generated commands say what was declared", "statement": "The file fbs-query writes for go generate, read as go generate and genny read it, calls genny exactly once per generated file, in order, with the template, the output file and the parameters meant: for every declared field the names of table and field, the type and the slot.", "quantifier": "every schema the parser accepts, every filter", "why_tests_cant": "unbounded schemas; names become part of quoted command lines", "anchors": ["cmd/fbs-query/main.go: MakeGenGennies, GennyMode, main", "fbsparser/fbs.peg: root_decl"]}
{"id": "C116", "title": "fbs-query leaves behind the generated files and nothing else", "statement": "Given a schema, fbs-query -out D fills the directory D with one file per command, holding what genny makes of the template and the parameters; the directories it needs on the way are removed afterwards, and every other file is as it was. This holds for every way to write D, relative or absolute, and for the working directory if -out is left out.", "quantifier": "every schema, directory name, working directory and contents of the file system", "why_tests_cant": "all paths, all contents of the file system before", "anchors": ["cmd/fbs-query/main.go: MakeGenGennies, writeTmp, RunGenerate, GennyMode, main", "query/template/genny-load.go: AssetNames, Asset"]}
{"id": "C117", "title": "Inspection with values lists what the table holds", "statement": "FetchVtable followed by FetchAll gives for every field, in order, the value of the field (a number, or the length of a string), the inspections of the nested tables in the same way, and the same Length as GetFbsInfo; it panics exactly when something belonging to the table does not lie in the buffer.", "quantifier": "every buffer, description of the fields, nesting and iteration order of the map", "why_tests_cant": "unbounded nesting; random map order; all buffer contents", "anchors": ["info/info.go: Fbs.FetchAll, Fbs.FetchVtable, GetFieldType"]}
{"id": "C118", "title": "The command line decides what is generated", "statement": "fbs-query with -fbs F and -out D, in any order, with one or two dashes, the values after = or as the next argument, generates the files of the schema in F into D, and if -filter N is given only those of N; of a flag given several times the last counts. It ends with status 0 exactly if the files were generated; unknown flags are refused, -h prints the help and does nothing.", "quantifier": "every command line, schema, directory and file system", "why_tests_cant": "unbounded command lines and schemas", "anchors": ["cmd/fbs-query/main.go: main, GennyMode"]}
{"id": "C119", "title": "fbshelper writes one file for each declaration", "statement": "fbshelper F T D writes for each table, struct and union of the schema in F one file <name>.fbshelper.go into D, with what the template T (for unions the template union.<T> beside it) gives for the declaration, and touches no other file. With too few arguments it prints its usage; it ends with status 0 exactly if the files were written. The helper functions of the templates work for every type name.", "quantifier": "every schema, template engine, argument list, working directory and file system", "why_tests_cant": "unbounded schemas and names; all contents of the file system before", "anchors": ["main.go: main, FromTemplate, IsMessage, IsSlice, ToCamelCase, ToBareType"]}
