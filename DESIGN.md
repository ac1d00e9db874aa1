# Formal model of kazu/fbshelper in Lean 4

Source of truth: the Go code in `/repo` (read as text, never built here).
All Lean sources are in `lean/Verif`, imported from `lean/Verif.lean`.

## 1. Trusted base

* The Lean 4.33.0 kernel. Every property theorem depends on no axioms beyond
  `propext`, `Classical.choice`, `Quot.sound`; section 5 lists the axioms of each
  theorem as printed by `#print axioms`. There is no `sorry`, no own axiom, no
  `native_decide`/`bv_decide`. Concrete witnesses use `decide`, `decide +kernel`
  or `rfl`, all of which are checked by the kernel.
* The hand translation Go -> Lean. Each definition cites file and lines and
  states its simplifications. Nothing checks this translation mechanically; the
  mutation log (`seeded/LOG.jsonl`) only checks that the theorems notice changes
  of the model. In entries with the outcome `inconclusive` the prover was killed for
  memory before it reported an error, or the edited definition did not compile; they are no
evidence for any theorem. (Earlier versions
  of the log named a failed theorem or module there; that was inferred, not observed.)
* Semantics assumed for code outside the repository:
  `loncha.LastIndexOf` / `IndexOf` (index of last / first element satisfying
  the predicate, error if none), `loncha.Delete` (keeps, in order, the elements
  whose index does not satisfy the predicate), `sort.Sort` (calls only
  Len/Less/Swap), `sort.Slice` (sorts), `flatbuffers.GetUintN/WriteUintN`
  (little endian, panic if the slice is shorter than N bytes), Go slices,
  `append`, `copy`, channels (bounded FIFO queues), maps, sequentially
  consistent memory, `io.Reader`/`io.ReaderAt` implementations that obey the
  documented contracts.
* Go `int` is modelled by unbounded `Int`/`Nat` (the code never approaches
  2^63); `uint16`, `uint32` truncations are explicit (`% 2^16`, `% 2^32`).
* A run-time panic is `none` in the `Option` monad. Where a branch is not
  modelled the result is also `none`, and the definition says so; a theorem that
  claims a result `some _` therefore claims absence of panics, and a theorem
  that claims `none` is only stated for real panics.

## 2. Layers of the model

| layer | modules | what |
|---|---|---|
| V | `Go`, `Buf`, `BufSpec`, `BufLemmas`, `BufOps`, `BufOps2`, `BufRead`, `Cells`, `Pieces` | value-level buffer: Go slice = visible data + spare capacity; `BaseImpl` = bytes + journal of segments |
| H | `Heap*` | memory-level buffer: slices are windows into shared arrays, used for aliasing properties and the in-place and two-layer backends |
| S | `Stream*` | buffers opened on readers (loaded segments, `ReaderAt`, `Next`) |
| T | `Types`, `Codec`, `Misc` | type tables, classification, symbols, scalar codecs, small pure functions |
| N | `Node`, `NodeEdit`, `FbSpec`, `NodeLemmas`, `TableInv`, `TableSet`, `TableNest`, `CellReads`, `TabCells`, `Access`, `TypedSet`, `Message` | tables, structs, unions on top of V |
| L | `ListEdit`, `ListDirect`, `ListTable`, `ListSwap`, `TabInline`, `ListAdd`, `ListRange`, `DirRange` | vectors on top of V |
| M | `Chan`, `Log`, `Info`, `Peg`, `PegLemmas`, `Schema*`, `GenCmd` | goroutines and channels as state machines, logging, inspection, schema parser, generator |

Property theorems live in `Verif/Props/*.lean`, separate from the helper
lemmas. Specifications that do not mention the model's helpers: `BufSpec`
(byte maps, last writer wins), `FbSpec` (flatbuffers wire format), `SchemaSpec`
(schema texts and their meaning), and the small `def`s at the top of each
`Props` file (arrays, permutations, histories).

When the code violates a property, the file contains a concrete witness
(`..._fails`) and the strongest partial statement found (`..._partial`).
Non-vacuity: an `example` beside each theorem instantiates its hypotheses.

## 3. What is modelled and what is not

Modelled (Lean module in brackets):

* `query/base/base.go`: segments, predicates, `Merge*`, `R`, `writerR`, `C`,
  `Copy`, `D`, `U`, `LenBuf`, `MergeDiffs`, `Flatten`, `Dedup`, `BufInfo`,
  `insertSpace`/`InsertBuf`, `Equal`, `shrink`, `Dup`, `Read`/`ReadAt`/`Write`/
  `WriteAt`, `Diffs` helpers, `calcBufSize`, `AddRDiff` [Buf, Misc];
  `loadBuf`, `readerR`, `Next`, `NewBaseImplByIO` [Stream]; logging [Log].
* `query/base/common.go` 344-358 `Open` and the reading accessors of `node.go`, `common.go` and
  `list.go` on a
  buffer over a stream, with and without `checkBoundary` [StreamNode].
* `query/base/io.go` (`ReaderAt` over a sequential reader) [Stream].
* `query/base/directreader.go` (`NoLayer`, `DoubleLayer`) [Heap*].
* `query/base/node.go`, `common.go`, `list.go`: construction, vtable access,
  fields, unions, info, editing, equality, lists (see the citations in `Node`,
  `NodeEdit`, `ListEdit`) [Node, NodeEdit, ListEdit].
* `query/base/util.go`: type groups, sizes, symbols, unions [Types]; registration
  (`SetNameIsStrunct`, `SetAlias`, `ApplyRequestNameFields`, generated `SetNodeNameFields`)
[Registry].
* `query/base/list.go` 16-255 `CommonList` with a data writer (files, buffers and plain writers that
  never fail) [Split].
* `query/base/common.go` 196-224, 606-840 `IsLeafAt`, `TraverseInfo`, `AllTree`, `FindTree`
  [Tree, TreeCond]
  (the channel of `FindTree` and `query/dump/histories.go` in [Chan]); 842-937 `RootCommon`,
  `InsertSpace` with its root branch [NodeEdit].
* `info/info.go` [Info], `FetchAll` [InfoAll]; `query/log/error.go` [Log].
* `fbsparser/fbs.peg`, the generated recogniser and `parser.go` [Peg]; the recogniser with its
  array of tokens, and
  `main` of `cmd/fbs-query` after errors [PegTape].
* `cmd/fbs-query/main.go` `MakeGenGennies` and its helpers [GenCmd], the text it returns
  [GenText]; a reader of that
  text after the documentation of go generate and genny is part of the specification [GenRead]
(variables `$X`,
  numeric escapes and the words BUILTINS and NUMBERS of genny are left out). `RunGenerate`,
`GennyMode` [GenRun]:
  files cannot fail, there are no links, other Go files in `gen` are not run, genny is any
function of template and
  parameters, `filepath.Clean` and `Join` follow their documentation.
  `main` with its flags [GenMain]: `flag.Parse` follows the source of package flag; a panic
leaves unspecified files.
* `main.go` (the older generator) `main` and the helpers of its templates [Helper]:
  text/template is a parameter, a missing
  template is read as empty (`structer.LoadFile` is outside the repository), names are ASCII.
* `template/genny/root.go` scalar constructors [Misc, NodeEdit], `WithHeader`, `HasNext` [Access];
  `common.go` `OpenByBuf`, `Len`, `SetBool` .. `SetFloat64` [Access].
* `Unmarshal`, `SearchInfo`, `oldMovOffToTable`, `SetRootName`, `IsRoot`, `option.go`, the
  generated list
  functions, `Root` of nodes, union members (`template/genny/list.go`, `node.go`,
`union-alias.go`) [Api].
* `query/base/list.go` 1004-1051 `SortBy`, `IsSorted`, `SearchIndex` on lists; `sort.Sort` is
  any tree of
  `Less` and `Swap` calls, `sort.IsSorted` and the insertion sort of Go are transcribed [Sort].

Not modelled:

* `checkBoundary = false` for buffers in memory, `dirties` and the `Dirty` options,
  `ClearValueInfoOnDirty`.
* The generated accessor code (templates after substitution) except field accessors, `CountOfField`,
  `Equal`, `Next`, `HasNext`, `WithHeader` [Access], those in [Api], and registration
[Registry]; what genny
  does with a template; text/template, and `TextTemplateMode`.
* Rendering of dumps (`DumpTableWithVTable`, the diff library), formatting of
  log texts (`fmt.Sprintf`).
* Values cached in argument nodes (`fNode.Node.Size`, `elm.Node.Size`), except in Props/Reuse
  (C113).
* Weak-memory behaviour and data races, except where a property names them.
* Machine limits: memory exhaustion, `int` overflow.

## 4. Per property: model, proof, gaps

### C01 Flatten keeps every byte and the length (proved)

`content b x` (last writer wins over initial bytes) is the specification. Induction over the
journal: folding `copyAt` over the segments is last-writer-wins. [Buf, BufSpec]

Theorems: `flatten_preserves`.
Note: buffer without an attached stream; streams are C02.

### C02 Flatten keeps bytes that were loaded from a stream (partial)

Stream buffer model with loaded segments; witnesses that Flatten copies only the journal,
induction over histories for the bytes it keeps. [Stream]

Theorems: `flatten_stream_fails`, `flatten_hole_fails`, `flatten_stream_partial`,
`stream_history_partial`.
Gap: fails for bytes loaded outside the initial buffer and for holes below the last write; bytes
of the initial buffer and written bytes are kept.

### C03 A positioned write is read back and touches nothing else (proved)

`WriteAt` appends a segment; `content` of the new journal is `put` of the old; read-back through
`R`. [Buf]

Theorems: `writeAt_reads_back`, `writeAt_R`.

### C04 An update window replaces exactly its range (proved)

`D` splits and appends; case analysis on the window position, then `content` extensionality.
[Buf, BufOps]

Theorems: `updateU_exact`, `U_zeroes`.

### C05 Any editing history equals the byte-map semantics (proved)

Refinement: each step acts on the denoted byte map as the abstract step; induction on the
history. [Buf, BufSpec]

Theorems: `history_refines`, `step_refines`.
Note: refinement to a byte map for all finite histories of WriteAt/Write/update
window/Flatten/Dedup.

### C06 Dedup is invisible to readers (proved)

Deleted segments are covered by later ones, so they never decide `content`; induction from the
end of the journal. [BufOps]

Theorems: `dedup_invisible`, `dedup_drops`.

### C07 Merging journal segments is invisible to readers (partial)

Merging pairs out of order is wrong in general (witness). Partial: bytes on which the covering
segments agree, and coverage. [BufOps]

Theorems: `mergeDiffs_preserves_partial`, `mergeDiffs_coverage_partial`, `mergeDiffs_fails`.
Gap: the code violates the full statement (mergeDiffs_fails); proved for bytes on which the
covering pending writes agree, and coverage in all cases.

### C08 Merging terminates and leaves no mergeable pair (proved)

Measure: number of segments decreases on each merge; at the fixpoint no pair merges. [BufOps2]

Theorems: `mergeDiffs_fixpoint`.

### C09 Two-segment merge is an overlay (proved)

Case analysis on the relative position of two half-open ranges. [Buf]

Theorems: `mergeStable_overlay`.

### C10 Interval predicates mean what they say (partial)

Pure interval arithmetic against membership of half-open ranges. [Buf]

Theorems: `include_iff`, `included_iff`, `inner_iff`, `innerd_iff_partial`, `innerd_fails`.
Gap: Innerd is wrong when the ends coincide (innerd_fails).

### C11 A sized read returns current bytes (partial)

`R` takes the last segment covering the first byte; right if no later segment begins inside the
returned part. [Buf, BufOps]

Theorems: `R_sized_partial`, `R_never_stale_partial`, `R_sized_fails`.
Gap: the code violates the full statement (R_sized_fails); proved when no write edge lies
strictly inside the range, or when no write starts inside an earlier one.

### C12 LenBuf is exact (proved)

Fold of ends is a maximum; readable bytes lie below it and it is attained. [BufOps]

Theorems: `lenBuf_exact`, `lenBuf_tight`.

### C13 Inserting space shifts the tail (partial)

`shrink`/shift of segments against the byte-map operation insert; at most one straddling
segment. [BufOps2]

Theorems: `insertBuf_shifts_partial`, `insertSpace_shifts_partial`, `insertBuf_fails`.
Gap: wrong with two or more pending writes straddling the position (insertBuf_fails); proved
with at most one.

### C14 Copy overwrites exactly the destination range (proved)

The copy loop appends pieces; invariant: the pieces appended so far denote the copied prefix.
[BufOps2, Pieces]

Theorems: `copy_exact`.
Note: source range readable and no pending write of the source starting inside an earlier one.

### C15 Copy with extension shifts the tail (partial)

As C14 with the shift of later segments; fails when a segment straddles the destination. [BufOps2]

Theorems: `copy_extend_partial`, `copy_extend_fails`.
Gap: wrong when a pending write straddles the destination offset (copy_extend_fails).

### C16 Read and ReadAt obey the io contracts (partial)

`ReadAt` copies from a single `R`; exact in flat buffers, short reads inside journals; witnesses
for the contract violations. [Buf]

Theorems: `readAt_flat_partial`, `readAt_contract_partial`, `readAt_fails`, `read_skips_fails`.
Gap: the code violates the io contracts (readAt_fails, read_skips_fails).

### C17 Dup gives an independent copy (proved)

Values: `Dup` copies every slice (value-level `dup_same`); independence: memory-level model,
fresh arrays, frame lemma over every later history. [Heap]

Theorems: `dup_separate`, `dup_independent`, `default_never_overwrites`.
Note: memory model; default, in-place and two-layer operations on either side; on the default
backend also with copies between the two (default_never_overwrites); copies between in-place
buffers are the subject of C19.

### C18 Slices handed out by the default backend are stable (proved)

Memory-level model of every operation of the default backend; frame lemma: arrays allocated
before the call keep their bytes; induction over histories. [Heap]

Theorems: `default_never_overwrites`, `op_prefix`.
Note: any number of buffers sharing memory.

### C19 Copied data does not track the source (partial)

`Copy` stores windows of the source arrays. Memory-level model: in-place backends expose the
sharing (witness); with only default-backend writers it is invisible. [Heap]

Theorems: `copy_tracks_source_fails`, `copy_stable_partial`, `copy_flatten_separate_partial`.
Gap: fails for in-place backends, where Copy keeps the slices of the source; holds on the
default backend, and on every backend once the destination is flattened.

### C20 In-place backend updates exactly the window (partial)

Memory-level `NoLayer.U`; witnesses for overlapping segments and for spare capacity; invariant
of separate segments (different offsets, different memory), preserved by fitting updates;
induction over histories. [HeapLayer, HeapInPlace]

Theorems: `nl_update_stale_fails`, `nl_update_lost_fails`, `nl_update_exact_partial`,
`nl_history_partial`, `nl_flat_history_partial`.
Gap: fails for overlapping segments and for updates landing in the spare capacity of a segment;
holds for separate segments and fitting updates, in particular for every history inside a buffer
without journal.

### C21 In-place backend reads current bytes (partial)

Memory-level `NoLayer.R`; case analysis on the last covering segment. [HeapLayer]

Theorems: `nl_read_fails`, `nl_read_partial`, `nl_read_plain_partial`, `nlR_eq_R`.
Gap: an empty slice is returned where a segment ends; right with a requested size, or elsewhere.

### C22 Two-layer backend preserves content (partial)

`DoubleLayer` operations at memory level; witnesses for merge and insertSpace; with at most one
segment it equals the in-place backend; `Diff.Merge` byte by byte (`merge_spec`), induction over
the merged segments (`dlMergeInto_spec`). [HeapLayer, HeapMerge]

Theorems: `dl_insertSpace_fails`, `dl_read_loses_fails`, `dl_single_partial`,
`dl_content_partial`, `dl_insertSpace_partial`, `dl_new`, `dl_merge_partial`, `dl_read_partial`,
`dl_gap_fails`.
Gap: holds with at most one segment, and for reads with any number of segments when the first
one starts lowest and does not share memory with the others (gaps between segments read as zeros
afterwards, dl_gap_fails); merging a segment that starts before the first loses data;
insertSpace inside a flat buffer does not move the bytes.

### C23 Buffer growth request is sufficient (partial)

Arithmetic of the rounding; the exact failing range is characterised. [Misc]

Theorems: `calcBufSize_partial`, `calcBufSize_short`, `calcBufSize_fails`.
Gap: the code violates the full statement; the exact failure condition is proved.

### C24 Loaded segments stay sorted and disjoint (partial)

Insertion at the found index keeps the order; the overlap check looks at one neighbour only. [Misc]

Theorems: `addRDiff_sorted`, `addRDiff_refuses_partial`, `addRDiff_disjoint_partial`,
`addRDiff_fails`.
Gap: sortedness always; overlap is only checked against the predecessor (addRDiff_fails).

### C25 A stream-backed buffer reads the stream (partial)

A stream is a function from offsets to bytes with an end; `loadBuf` as a state transformer;
invariant: every loaded segment agrees with the stream. [Stream]

Theorems: `stream_end_fails`, `stream_reads_fails`, `stream_unsized_fails`,
`stream_reads_partial`, `stream_forward_partial`, `stream_capacity_partial`,
`stream_history_partial`, `stream_exact_partial`, `stream_overlap_fails`.
Gap: bytes inside the stream are always right, in any history of reads and writes; fails past
the end (zeros), may panic for reads going backwards or without size; never panics for
increasing offsets or inside the capacity; ranges of less than 16 MiB each of which lies in or
is clear of the earlier ones are read whole, overlapping ones may be cut short.

### C26 A sequential stream is consumed in order (partial)

`ReaderAt` over a sequential reader (io.go) as a state machine over the unread suffix;
invariant: buffered prefix = consumed prefix. [Stream]

Theorems: `seq_second_read_fails`, `seq_beyond_capacity_fails`, `seq_first_read_partial`.
Gap: only the first load at offset 0 works: later loads return zeros or never end.

### C27 Chained Next reads consecutive messages (partial)

Offsets added by `Next` along a chain; induction on the chain, witness for the doubled offset.
[Stream]

Theorems: `next_next_offset_fails`, `next_next_read_fails`, `next_unloaded_fails`,
`next_capacity_fails`, `next_line_offset`, `next_one_partial`.
Gap: the second Next reads at 2*s1+s2; one Next is right when more than skip bytes are loaded.

### C28 Segment list helpers (proved)

List lemmas on `insert`, rotation, and fold-minimum. [Buf]

Theorems: `insert_spec`, `moveLast_spec`, `minOffset_least`.

### C29 Scalar encode/decode round trip (proved)

Little-endian codec: induction on the byte count; two's complement conversions by modular
arithmetic. [Codec, Misc]

Theorems: `unsigned_round_trip`, `signed_round_trip`, `bool_round_trip`,
`encoding_little_endian`, `set_round_trip`.
Note: floats as bit patterns; flatbuffers Get/Write assumed little endian.

### C30 Every schema scalar type is classified as basic with its size (partial)

Finite table of scalar names evaluated in the kernel; witnesses for the wrong entries. [Types]

Theorems: `scalar_classified_partial`, `scalar_classified_fails`.
Gap: uint8/byte/ubyte and float are misclassified (scalar_classified_fails).

### C31 A table or struct name is never classified as basic (partial)

Classification of arbitrary names by their suffix; witness for confusable names. [Types]

Theorems: `user_type_partial`, `list_type_group`, `user_type_fails`.
Gap: names ending in a builtin name after two characters are misclassified, one-letter names
panic (user_type_fails).

### C32 Symbol interning is a bijection (proved)

Invariant of the two maps over all registration sequences, by induction. [Types]

Theorems: `interning`, `interning_stable`.

### C33 Field symbols decode to their names (partial)

Packing of two 16-bit symbols; arithmetic. [Types]

Theorems: `nodeFieldSymbol_round_trip_partial`, `isSameTable_iff`, `nodeFieldSymbol_fails`,
`nodeFieldSymbol_wraps_fails`.
Gap: unregistered names are not refused; more than 65536 names wrap.

### C34 A fresh table has no fields (proved)

Evaluate `Init` symbolically for an arbitrary field list; read back through the vtable.
[NodeEdit, TableInv]

Theorems: `fresh_table`.
Note: every table type of the schema (offset-table layout); the schema tables are assumed well
formed.

### C35 Scalar fields keep what was last set (proved)

Invariant `TI` of a table under `SetFieldAt` of inline values; induction over the sequence of
settings. [TableInv, TableSet]

Theorems: `scalar_settings`, `fromScalar_src`.
Note: any sequence of settings of inline fields on a fresh table of total size below 2^16.

### C36 Setting one variable-length field keeps the others (partial)

As C35 with one variable-length setting in between: the invariant `Rep` has a tail behind the
table (the vector, or the pieces of the stored table). The journal of a table built by the API
consists of whole cells (`Cellular`), so the pieces `Copy` reads are unions of cells
(`Cells.reads`) and every field arrives in one piece (`Carries`). [TableInv, TableSet,
TableNest, CellReads]

Theorems: `vector_setting_partial`, `table_setting_partial`, `union_setting_partial`,
`fromBytes_src`, `vector_setting_fails`, `table_setting_fails`, `union_setting_fails`.
Gap: one byte vector, table or union value among any scalar and struct settings before and after
it; stored tables are built by Init and scalar or struct settings; a second variable-length
field destroys the first (vector_setting_fails, table_setting_fails); a tag without member makes
storing the union value panic.

### C37 Wrong-typed or out-of-range settings are refused (partial)

Case analysis of the guards before the first write. [NodeEdit]

Theorems: `set_refused`, `set_negative_fails`.
Gap: refused except for a nameless value at a negative index, which overwrites a struct field.

### C38 Field access follows the flatbuffers layout (proved)

Specification `FbSpec` (flatbuffers layout) vs. the reading functions on a flat buffer. [FbSpec,
Node]

Theorems: `slot_access`, `scalar_field`, `string_field`.
Note: conforming buffers in one piece (no journal), vtable before the table.

### C39 Fields beyond a shortened vtable are absent (partial)

As C38 with a vtable shorter than the schema; only the end of the buffer is checked. [Node]

Theorems: `short_vtable_partial`, `short_vtable_fails`.
Gap: the vtable length is never consulted; missing slots are absent only when they lie beyond
the buffer.

### C40 Shared vtables are supported (partial)

Sign of the soffset; a negative one makes the unsigned position underflow. [Node]

Theorems: `shared_vtable_fails`, `own_vtable_partial`.
Gap: every table with a negative soffset panics when opened; non-negative soffsets open.

### C41 Struct fields are read at their flatbuffers offsets (partial)

Packed sums vs. naturally aligned offsets. [Node, FbSpec]

Theorems: `struct_offset_partial`, `struct_packed`, `struct_offset_fails`.
Gap: fields are packed without alignment, so only padding-free structs are right.

### C42 Struct value info describes the requested field (partial)

Loop invariant of the struct branch of `ValueInfo`. [Node]

Theorems: `struct_info_partial`, `struct_info_fails`.
Gap: off by one: ValueInfo(i+1) describes field i.

### C43 Message length is aligned and sufficient (proved)

Modular arithmetic on the rounding. [Misc]

Theorems: `len_aligned`.
Note: relative to the end position computed by Info.

### C44 Union access selects the declared member (proved)

Case analysis on the type byte in a conforming buffer. [Node]

Theorems: `follow_union`, `union_canFollow`.

### C45 Node equality is an equivalence (partial)

`Equal` on lists of scalars reduces to lengths; witnesses against symmetry; lists of tables see
C75. [NodeEdit, Props/EqualDeep]

Theorems: `equal_scalar_lists`, `equal_refl_symm_partial`, `equal_list_deep`,
`equal_list_both_partial`, `equal_symm_fails`.
Gap: lists of scalars, and lists of tables and structs of any depth whose fields are all there:
reflexive; symmetric only for equal lengths, at every depth.

### C46 List index errors (partial)

Guards of `At`; elements of direct lists and well-formed table vectors. [Node, ListDirect,
ListTable]

Theorems: `at_refuses`, `at_inside`, `at_tables`, `at_dangling_fails`.
Gap: every list of scalars or structs, and every well-formed vector of tables in a flat buffer;
a dangling offset gives an error inside the list (at_dangling_fails).

### C47 Struct/scalar list equals an array (partial)

Representation invariant `LI` (count cell followed by the packed elements); induction over the
sequence of `SetAt`. [ListDirect]

Theorems: `struct_list`, `direct_program`, `list_negative_fails`.
Gap: negative indices are not refused: SetAt(-1) overwrites the count (list_negative_fails).

### C48 Table list equals an array (partial)

Representation invariant `TLI` (count, offsets, element blocks in order); induction over
appends. [ListTable, TabInline]

Theorems: `table_list_partial`, `built_table_list_partial`, `list_program_partial`,
`list_program_deep_partial`, `append_TLI`, `table_list_bytes_fails`, `table_list_empty_fails`.
Gap: tables of scalar and struct fields, in flat buffers (compared byte by byte) or built by
Init and SetFieldAt (compared field by field), and tables of any depth with one field of
variable length each; the code panics on absent byte vectors and on tables without data.

### C49 Swap exchanges two elements (partial)

Two offset cells exchanged and corrected; the element view is a transposition. [ListSwap]

Theorems: `swap_tables_partial`, `list_program_partial`, `list_program_deep_partial`,
`swap_outside`, `swap_negative_fails`.
Gap: every well-formed vector of tables in a flat buffer and all non-negative indices; a
negative index changes the count.

### C50 Swap works on struct and scalar lists with the default backend (partial)

Witness on the default backend (both elements zeroed), partial for equal indices. [ListEdit]

Theorems: `swap_direct_fails`, `swap_direct_partial`.
Gap: the code zeroes both elements (swap_direct_fails).

### C51 Sorting permutes (partial)

Induction over the swap sequence; each is a transposition (C49). [ListSwap]

Theorems: `swaps_permute_partial`, `list_program_partial`, `list_program_deep_partial`,
`swaps_scalar_fails`.
Gap: vectors of tables; scalars are destroyed (C50).

### C52 SearchIndex finds the first match (proved)

Loop invariant of binary search. [Misc]

Theorems: `searchIndex_first`, `searchIndex_range`, `searchIndex_local`.

### C53 Select, Find and All (proved)

Induction over the index loop; failing elements are skipped. [Misc]

Theorems: `select_find_all`, `select_find_skip`.
Note: for a list whose At agrees with an array (C47, C48); the loop bound is the cached length.

### C54 Sub-list by range (partial)

Representation invariant `TLI` under `New(OptRange)`: offsets corrected by the bytes left out,
element blocks copied; a sub-list is again such a list, so the programs of C48 may contain
sub-lists. Scalars and structs: the pieces read by `Copy` on top of the window of zeros
(`SubL`). [ListRange, DirRange, Props/ListProg, Props/ListDeep, Props/ListSub]

Theorems: `list_program_partial`, `list_program_deep_partial`, `sub_built_partial`,
`sub_flat_partial`, `range_refused`, `range_beyond_fails`, `range_small_fails`,
`range_stale_fails`.
Gap: lists of tables of any depth (one field of variable length per table) built by any program
of appends, copies, adds and sub-lists; lists of scalars and structs built by programs (size a
multiple of four) or in flat buffers; ranges that are negative, reversed or begin behind the end
are refused for every list, those ending behind it are not; small elements panic; a changed
sub-list yields stale sub-lists.

### C55 Adding lists concatenates (partial)

`TLI` under `addTableList`; `LI` under `addElms`; induction over programs of appending, copying,
adding and taking sub-lists. [ListAdd, Props/ListProg, Props/ListDeep]

Theorems: `add_direct`, `direct_program`, `add_empty_direct`, `add_tables_partial`,
`list_program_partial`, `list_program_deep_partial`, `add_empty_fails`.
Gap: lists of scalars and structs, and lists of tables of any depth, built by any combination of
appending and adding; an empty source is refused with an error.

### C56 Byte list round trip (partial)

Evaluate the constructor; `Bytes()` panics (witness). [NodeEdit]

Theorems: `byte_list_partial`, `byte_list_fails`.
Gap: count and elements; Bytes() panics.

### C57 Tree search delivers every match exactly once (proved)

Transition system of producer and consumer over a bounded queue; invariant: delivered ++ queued
++ still to send = matches; progress measure for termination under every schedule. [Chan]

Theorems: `findTree_prefix`, `findTree_complete`, `findTree_progress`, `findTree_terminates`.

### C58 Abandoning a tree search does not block (partial)

Same system with a consumer that stops; blocked iff more than ten matches are undelivered. [Chan]

Theorems: `findTree_abandon_partial`, `findTree_abandon_fails`.
Gap: with more than ten undelivered matches the producer goroutine is blocked forever
(findTree_abandon_fails).

### C59 Dumping never blocks the caller (partial)

Transition system of `Histories`; without a reader the queue fills. [Chan]

Theorems: `dump_nonblocking_partial`, `dump_blocks_fails`, `streamOut_progress`,
`streamOut_terminates`.
Gap: without StreamOut the 101st Dump blocks forever (dump_blocks_fails).

### C60 Streaming output is ordered and complete (proved)

As C57 with the print loop. [Chan]

Theorems: `streamOut_prefix`, `streamOut_complete`, `streamOut_no_panic`, `streamOut_progress`,
`streamOut_terminates`.
Note: sequentially consistent memory; the diff library is a fixed function.

### C61 Disabled log levels cost nothing and print nothing (proved)

Case analysis on the level. [Log]

Theorems: `log_disabled`, `log_enabled`, `log_iff`.

### C62 Filtered logging reaches the log writer (partial)

State of the log writer threaded through `Log2`; witness. [Log]

Theorems: `l2isEnable_iff`, `log2_runs_once`, `log2_restores_partial`, `log2_restores_fails`,
`log2_never_prints_fails`, `log2_fails`.
Gap: the text is written back into the private builder, so the code violates the claim
(log2_never_prints_fails).

### C63 Inspection length is order independent (partial)

Oracle permutations for map iteration; the maximum is order independent. [Info]

Theorems: `info_length`, `info_length_order`, `info_panic_order`, `info_child_fails`,
`info_vector_fails`, `info_absent_fails`, `info_vtable`, `info_value_fails`.
Gap: the vtable entries used are those of the wire format; a table whose first data bytes spell
one of the last three positions makes the inspection panic; total length and panics are order
independent; nested lengths are not (info_child_fails); of a vector only the last element is
covered (info_vector_fails).

### C64 Field numbering matches flatbuffers slots (partial)

Slot counting over the field list vs. the flatbuffers rule. [Peg]

Theorems: `slots_partial`, `finalize_iff`, `slots_lower_fails`, `slots_vector_fails`,
`slots_short_fails`.
Gap: wrong for unions with lower-case names and vectors of unions, and one-letter type names panic.

### C65 Identifier conversion is total (partial)

Induction over the words of the identifier. [Peg]

Theorems: `camel_iff`, `camel_total_partial`, `camel_total_fails`.
Gap: panics exactly when a word between underscores is empty.

### C66 Schema parsing round trip (proved)

Specification of schema texts with free layout; each PEG rule proved on printed text; induction
over declarations. [SchemaSpec, SchemaLemmas, SchemaParse]

Theorems: `parse_print`.
Note: printable class: namespace, root_type, tables, structs, unions,
file_extension/file_identifier/attribute, with arbitrary layout at the positions the grammar
allows, metadata and integer or boolean defaults; no user type name starting with a built-in
name.

### C67 User type names are not confused with built-in types (partial)

Ordered choice of built-in names before identifiers; exact condition. [SchemaParse]

Theorems: `parse_user_type_partial`, `basic_type`, `parse_user_type_fails`.
Gap: a user type whose name starts with a built-in name is not parsed.

### C68 Generated commands cover each field once with its slot (proved)

Map over the finalised declarations. [GenCmd]

Theorems: `gen_commands`, `gen_iff`, `gen_after_finalize`, `gen_schema_partial`.
Note: numbered with the position in the finalised declaration; the slot claim from schema text
is gen_schema_partial (limits of C64).

### C69 Generated files do not overwrite each other (partial)

Injectivity of file names under non-clashing names; witnesses for clashes. [GenCmd]

Theorems: `out_files_partial`, `out_files_field_fails`, `out_files_list_fails`,
`out_files_union_fails`.
Gap: distinct when names do not clash.

### C70 Scalar fields get scalar accessors (partial)

Finite type table. [GenCmd]

Theorems: `scalar_accessor_partial`, `scalar_accessor_fails`.
Gap: byte, ubyte, uint8 and float miss the type table.

### C71 Layout is free (partial)

Same theorem as C66 (layout is universally quantified); witnesses where the grammar forbids
layout. [SchemaParse]

Theorems: `parse_print`, `layout_fails`.
Gap: free layout at the positions of the printable class; not before the first declaration and
not around colons.

### C72 Every scalar default value is accepted (partial)

Same theorem as C66 (defaults are universally quantified in the printable class); witness.
[SchemaParse]

Theorems: `parse_print`, `default_fails`.
Gap: digits, true and false are accepted; negative and fractional values are not.

### C73 Enums do not disturb tables (partial)

Same method as C66 with a meaning in which the members of enums wait for the next declaration
with fields (`Leaky`, `exec_xdecl`); the refutations for all enums by the order of the
alternatives of the grammar (`enumField_first`, `enumDecl_head`). [Peg, Props/Enum]

Theorems: `parse_print`, `enum_parse`, `enum_last_partial`, `enum_fails`, `enum_leak_fails`,
`enum_members_fails`, `enum_value_fails`, `enumField_first`.
Gap: schemas without enums, and those whose enums have one member without a value and stand
behind all tables, structs and unions, are parsed exactly; any other enum of one member becomes
the first field of the next table or struct (or a member of the next union); no enum with two
members or with a value is accepted; what is reported is given exactly for all enums with a
type.

### C74 Equal compares list contents (partial)

See C45. [NodeEdit]

Theorems: `equal_scalar_lists`, `equal_list_deep`, `equal_contents_fails`,
`equal_vectors_fails`, `equal_no_vector_fails`, `equal_empty_vector`,
`equal_vector_absent_fails`.
Gap: Equal looks only at the lengths of lists of scalars, and not even at those if the lists are
fields; elements of lists of tables are compared as far as the first goes, an absent list equals
every list.

### C75 Equal on tables is equality of fields (partial)

Specification: values (`EV`), what accessors show (`ShowsV`), which values `Equal` takes for
equal (`agreeV`); mutual structural induction over the value of the first table (`equal_V`),
members of unions being fixed by the tag compared before (`followUnion_tag`); messages built,
saved and opened show their values (`val_shows`, by induction over the value, from C105).
[NodeEdit, Props/EqualDeep, Props/EqualVal]

Theorems: `equal_tables_partial`, `equal_deep_partial`, `equal_same`, `equal_both_partial`,
`equal_messages_partial`, `equal_groups`, `equal_absent_fails`, `equal_no_table_fails`,
`equal_vectors_fails`, `equal_types_fails`.
Gap: tables and structs of any depth whose fields are all present: true exactly if the values
are the same but for vectors (those of tables are compared as far as the first goes, those of
numbers and bytes not at all); panics on absent scalars and tables; tables of different types
may be equal in one direction only (equal_types_fails).

### C76 Replacing a range writes exactly the range (partial)

`C` appends the first bytes of the source slice; `content` extensionality. [BufOps2]

Theorems: `C_outside`, `C_exact_partial`, `C_exact_fails`.
Gap: bytes outside, length and panics in all states; the range itself when no pending write
starts strictly inside it (C_exact_fails otherwise).

### C77 Buffer comparison is sound (partial)

`Equal` compares initial bytes and journals pairwise. [Buf]

Theorems: `equal_sound`, `equal_equivalence`, `equal_dup`, `equal_complete_fails`.
Gap: sound and an equivalence; not complete (a buffer differs from its flattened self).

### C78 BufInfo reports the extent of the buffer (proved)

Folds of maxima. [Buf]

Theorems: `bufInfo_exact`.

### C79 Union members are numbered in registration order (proved)

Induction over the sequence of registrations. [Types]

Theorems: `aliases_in_order`.

### C80 Generated accessors return declared types (partial)

Case analysis on the field type against the set of declared types. [GenCmd]

Theorems: `result_types_partial`, `result_types_fails`.
Gap: declared field types without vectors of unions; ubyte, uint8 and float have no declared type.

### C81 A finished table is a flatbuffers message (partial)

`Rep` (the invariant of C35-C37) gives the cells of the table; `Flatten` spells the cells out as
bytes behind the header; the wire format is specified by `WireTable`/`WireField`, which only
look at the bytes. [Message, Props/Message]

Theorems: `message_scalars`, `message_vector_partial`, `message_table_partial`,
`message_union_partial`, `value_deep_partial`, `message_align_fails`.
Gap: scalars and structs in any number, and one byte vector, table, union value or list of
tables among them, to any depth; alignment is not respected (message_align_fails).

### C82 Write, finish, open, read (partial)

Reading a buffer of one flat slice is reading its bytes; the accessors follow exactly the
offsets in `WireTable`. [Props/Message]

Theorems: `reopen_scalars`, `reopen_vector_partial`, `reopen_table_partial`,
`reopen_union_partial`, `value_deep_partial`, `header_once_partial`.
Gap: scalars and structs in any number, and one byte vector, table, union value or list of
tables among them, to any depth; finishing an opened message leaves it alone if its root lies at
8..65535 and its vtable at 4 or later.

### C83 Typed setters write their field and nothing else (partial)

`U` on a window inside the inline cells of the table preserves `Rep` with the new value
(`rep_update`); induction over programs mixing settings and setters. [Access, TypedSet]

Theorems: `typed_set`, `typed_refused`, `typed_program`, `typed_setters`, `typed_uint8_fails`,
`typed_element_fails`, `typed_short`.
Gap: every handle with the size of its type, and every program on a table of scalars and
structs; fields of type uint8 have no size (typing error in the type table) and list elements
have none, so setters refuse them.

### C84 Inserting bytes keeps a table readable (partial)

insertSpace moves every cell behind the position; a table at `x` is a set of cells whose
relative positions are kept (`TabAt`, `FldAt_move`). [TabCells]

Theorems: `insert_outside_partial`, `insert_outside_vector_partial`, `insert_at_table_fails`,
`insert_vtable_fails`.
Gap: positions up to the vtable or from the end of the buffer on; fails between the vtable and
the end of the inline part (insert_at_table_fails, insert_vtable_fails).

### C85 Reading a field leaves the table alone (partial)

Case analysis on `FieldAt`; for structs the zero struct is an admissible source of C35
(`initStruct_src`, `set_inline`); counterexamples evaluated on a concrete schema. [Access,
Props/GenAcc]

Theorems: `getter_present`, `getter_unnamed`, `getter_struct_partial`, `getter_table_fails`,
`getter_list_fails`, `getter_union_fails`.
Gap: present fields of every type; scalars, byte vectors and vectors of scalars also when
absent; absent structs of tables built by the API; the accessor of an absent table or list
destroys other fields, that of an absent union panics.

### C86 Messages following each other in memory (partial)

Unfolding; `Next` takes an empty slice of the buffer in every case. [Access, Props/GenAcc]

Theorems: `hasNext_missed_fails`, `hasNext_alone_fails`, `hasNext_fails`, `next_memory_fails`.
Gap: violated: HasNext is false whenever another message follows and true for some messages that
are alone; Next in memory never delivers another message (proved for all buffers).

### C87 Generated Equal is equality of fields (partial)

Induction over the fields compared; scalars have no fields in the registry, so
`CommonNode.Equal` on their handles compares nothing. [Access, Props/GenAcc]

Theorems: `genEqual_scalars_fails`, `genEqual_string_fails`.
Gap: violated: the generated Equal ignores the values of scalars (proved for all tables) and
every field numbered beyond the number of scalar fields.

### C88 Registration order does not matter (partial)

Induction over the history from its end with the invariant `RegInv` (maps against the
declarations read off the history), then over the requests; order independence follows since the
result is a function of the set of declarations. [Registry, Props/Registry]

Theorems: `registry_exact`, `registry_order`, `registry_early_fails`, `registry_late_fails`,
`registry_short_fails`.
Gap: every history in which fields have one type and one number and type names at least two
characters, all registered before the first node is made; types registered later, or looked at
before, have wrong groups; one-letter types panic.

### C89 Types seen by nodes are those of the schema (partial)

The commands are mapped to registrations (`eventsOf`); `makeGen_events` identifies them with the
declarations; C88 and C64/C66 give the rest. The substitution performed by genny is assumed
(`capFirst`). [Registry, Props/Registry]

Theorems: `generated_registry`, `schema_registry_partial`, `generated_lower_fails`,
`generated_clash_fails`.
Gap: schemas whose tables, fields and unions have names differing after capitalisation; from
text for printable schemas; lists of tables with lower-case names are registered under another
name, names differing in the first letter only clash.

### C90 Writing list data elsewhere keeps the list (partial)

Invariant `SplitI` (offsets in memory, elements in the file) established from the list invariant
`TLI` and kept by `SetAt` (`SplitI.setAt`); putting both together gives the view `TView` of
C46-C49. Elements of any depth enter through `Good` of C105 (`split_deep`). [Split, SplitLemmas,
SplitAppend, Props/Split, Props/SplitDeep]

Theorems: `split_deep_partial`, `split_deep_bytes_partial`, `split_program_partial`,
`split_bytes_partial`, `split_swapped_fails`, `split_append_fails`, `split_append_at_fails`,
`split_writer_fails`, `data_writer_fresh`.
Gap: tables of any depth (one field of variable length per table), files, appended tables merged
and without tables or union members in them; swapped lists are cut at the wrong place, unmerged
tables and elements of other lists are written wrongly, other writers lose appended tables.

### C91 Adding lists with data elsewhere concatenates them (partial)

Induction over the two offset loops (`writeOffs_eq`), then `SplitI.add`. [SplitAppend,
Props/Split, Props/SplitDeep]

Theorems: `split_deep_partial`, `split_program_partial`, `split_nested_fails`,
`split_add_append_fails`, `split_add_cursor_fails`, `add_cached`.
Gap: tables of any depth (one field of variable length per table), files, the added file rewound
before; an appended table with a table or union member in it leaves uncounted bytes in the file,
behind which Add writes; the result of Add cannot be appended to (cached size four too small); a
file not rewound makes Add fail.

### C92 Len is the length of the message, aligned (partial)

Arithmetic of the rounding; for messages the extent computed from the cells of the table
(`SelfC.info`) at position 8 of the finished bytes; at any depth from the invariant of C105,
which also bounds the end of the buffer (`Cellular`). [Props/Len, Props/DeepLen]

Theorems: `len_rounds`, `unknown_info`, `unknown_field`, `len_message_partial`,
`len_deep_partial`, `len_exact_partial`, `len_absent_fails`, `len_room_fails`.
Gap: always the extent rounded up to 8; the extent is the number of bytes for values of any
depth (see C105) whose root holds no table or union member and no absent scalars wider than the
data; a stored table leaves as many unused bytes behind it, which are part of the message but
not of Len.

### C93 In-place insertion makes the space exist (proved)

Case distinction on the two calls of `insertSpace`; `insertSpace_ok` relates both to the value
level. [HeapLayer]

Theorems: `nl_insert_space`.

### C94 Structs read as set (partial)

Invariant `StrI` (each field is one piece of the buffer holding its value) by induction over the
settings; after merging the whole struct is one piece, an admissible value of C35.
[Props/Struct]

Theorems: `struct_fields`, `struct_stored_partial`, `struct_store_fails`, `struct_small_fails`.
Gap: structs of scalars of at least four bytes; stored in a table after merging; stored without
merging, fields behind an unset one are lost (struct_store_fails); Init panics for smaller
structs.

### C95 The walk over a message visits everything in it (partial)

Specification `Reached` (what hangs below a table) and `VisitOk`; induction over the path for
completeness (`walk_reached`), strong induction over the fuel for soundness; any condition only
chooses among the calls (`walk_cond`, induction over the fuel). [Tree, TreeCond, Props/Tree,
Props/TreeCond]

Theorems: `walk_complete`, `walk_sound`, `walk_cond`, `walk_absent_fails`, `walk_leaf_fails`.
Gap: a walk that comes to its end visits exactly what is reached; any absent vector makes it
panic; struct members are reported at the place and with the size of the member before, absent
scalars at the place of the table.

### C96 AllTree puts every tree under its owner (partial)

Every owner visited is itself a tree (`reached_tree`, `owner_tree`), so the search by position
finds one (`parentIdx_first`). [Tree, Props/Tree]

Theorems: `tree_parents_partial`, `tree_struct_fails`.
Gap: the parent stands where the owner stands and is the owner if nothing else stands there; the
first struct of a list stands where the list stands, and its members go to the list.

### C97 Editing an opened message (partial)

A table behind bytes `p` is edited as the table alone (`shC`, lemmas of Shift) when nothing of
the message stands behind the place of insertion; for a root of scalars and structs the walk
shows that (`walk_plain`, `root_front`); merged buffers represent the same table (`rep_flat`),
so sessions compose by induction. For messages of any depth: `Val.Laid` says where a value lies;
along a path (`Ctx`) everything but the table edited is kept or moved by one amount
(`ctx_edit`); the walk of `InsertSpace` finds exactly the lists on the path with entries behind
the place (`ctx_core`, `insert_msg`), so after each setting the message is laid out as the
edited value (`InMsg.step`, `InMsg.run`); saving keeps the layout (`InMsg.saved`), opening finds
it (`Saved.opens`), so sessions compose; `Val.laid_reads` and `Val.laid_wire` read it. The
negative theorems compute. [Shift, EditIn, Laid, EditPath, EditDeep, EditMsg, LaidWire,
Props/EditIn, Props/EditDeep]

Theorems: `edit_deep_partial`, `edit_now_partial`, `edit_sessions_partial`, `edit_read_partial`,
`edit_absent_fails`, `edit_absent_set_fails`, `edit_sibling_fails`, `edit_order_fails`,
`edit_shared_fails`, `move_outside`.
Gap: proved for messages of any depth built by the API with one field of variable length per
table, every vector present, settings of one table per session in an order that starts with an
absent field or sets present fields only; read by the API and as flatbuffers; otherwise
violated: a message with any absent vector cannot be edited at all (panic); with an absent table
in front, editing a table corrupts its right neighbour; two fields overwritten before one is
added lose a vector behind them; tables sharing a virtual table corrupt each other; missing:
several fields of variable length in one table, messages of other programs.

### C98 Unmarshal fills a Go struct from a table (partial)

Specification `filled` per Go field; field by field via `mapM_eq`, with `FieldRead` for scalars;
for messages composed with C83/C84. [Api, Props/Api]

Theorems: `unmarshal_partial`, `unmarshal_message_partial`, `unmarshal_refused`,
`unmarshal_absent_fails`, `unmarshal_numbers_fails`, `unmarshal_type_fails`.
Gap: scalars, and byte vectors that are present; an absent byte vector, every vector of numbers,
and Go fields of another type make it panic.

### C99 Generated lists give the elements of the list (partial)

The generated loops over `arrayAt l` are reduced to list functions; the binary search by C66
lemmas. [Api, Props/Api]

Theorems: `gen_list_partial`, `gen_search_partial`, `gen_find_fails`.
Gap: everything but the case that nothing is found: Find and Search then hand out a node with
nothing in it instead of nil.

### C100 A message uses the backend it is opened with (partial)

The backend variable is followed through a list of calls of `Open`, induction from the end.
[Api, Props/Api]

Theorems: `backend_partial`, `backend_history`, `backend_name_fails`, `backend_sticky_fails`,
`backend_first_fails`.
Gap: histories in which every message names one of the other backends; the name DoubleLayer is
not recognised, the choice sticks to later messages, and only the first option counts.

### C101 The root of a node (partial)

The root name is followed through the history; `RootCommon` reads the same header as
`OpenByBuf`. [Api, Props/Api]

Theorems: `root_name_first`, `root_partial`, `root_refused`, `root_name_fails`, `is_root_fails`.
Gap: programs with a single root type; a second root type gets the name of the first; IsRoot
compares type names.

### C102 Setting a union selects its member (partial)

Negative theorem: the tag field stays absent when only the union is set, by the nested build
theorem of C88. [Api, Props/Api]

Theorems: `union_member_partial`, `union_untagged_fails`.
Gap: member accessors agree with FollowUnion; setting the union alone leaves the tag unset, so
nothing is selected.

### C103 Both ways to move the offsets of a list agree (partial)

Invariant of the loop (`oldMoveFrom_spec`: the first i offsets are moved, the rest still lies in
one piece); both results are one write of the same bytes (`put_put`). [Api, Props/Api]

Theorems: `move_offsets_partial`.
Gap: for lists with at least one element whose offsets each lie in one piece of the buffer (with
no element movOffToTable panics; Add never calls it then).

### C104 SearchInfo reports everything that satisfies the condition (partial)

Specification `Seen` (path of nodes satisfying the condition); induction over the path, and over
the fuel for soundness. [Api, Props/Api]

Theorems: `search_complete_partial`, `search_sound`, `search_absent_fails`.
Gap: a search that comes to its end reports everything, and only what satisfies the condition;
an absent table makes it panic.

### C105 Values of any depth survive writing and reading (partial)

Specification: mutually inductive `Val/Sub/Vals` with the program that makes them, what must be
read (`Val.Reads`) and their size. Mutual structural induction (`val_good`, `sub_good`,
`vals_good`) with an invariant (`Good`) saying that the pieces in which `Copy` reads the node,
or the one piece it is after `Flatten`, are read as the value wherever they are put (`Piece`,
`Leads`, `listPs`, closed under being copied into another buffer); that a copy meets exactly
these pieces follows from the borders of the segments (`Cells`, `Cellular`, `Aligned`).
[CellReads, Deep, Props/Deep]

Theorems: `value_deep_partial`, `list_deep_partial`.
Gap: any depth, any number of list elements; at most one field of variable length per table (a
second one corrupts the first, see C48), every table, union member, element and list stored as
it is or merged by Flatten first, byte vectors of the types must be set, scalars not set no
wider than the data.

### C106 FindTree delivers every tree that satisfies the condition (partial)

Owners come before what they own in the walk (`walk_rooted`, induction over the fuel), so every
tree has an earlier parent (`ForestOk`), and following parents reaches the first tree; children
lists are disjoint, so no tree is met twice (`find_spec`). [EditForest, Props/Find]

Theorems: `find_complete_partial`.
Gap: for messages every list of which has all its elements (else AllTree looks at a nil tree),
and schemas without vectors in structs.

### C107 Lists go on being arrays after elements were exchanged (partial)

Invariant `TLX`: elements in the order of the buffer and, for every offset, the number of the
element it leads to; kept by `SetAt` at the end (the cached size keeps the end of the elements)
by `SwapAt`, and by `Add` if the last offset leads to the last element (`Tail`); a sub-list is a
view `GView` in which the elements lie anywhere. The refutations are runs of small programs.
[ListMixed, ListMixedAdd, Props/ListMixed]

Theorems: `list_mixed_partial`, `add_swapped_fails`, `swapped_add_fails`, `range_swapped_fails`.
Gap: any program of appends, copies, exchanges and Add over tables of any depth reads as the
array, and so does every sub-list, as long as the last element of the lists given to Add is the
one stored last; otherwise Add loses or overwrites elements, and so does appending to a
sub-list.

### C108 Trees say where things lie and how long they are (partial)

Specification `sortOf`/`Place`/`Extent` by the kinds of fields and the stored offsets; case
analysis of `FieldAt` (`fieldAt_extent`), joined with the trees of `AllTree` (`allTree_trees`).
[Tree, Props/TreeExtent]

Theorems: `tree_extent_partial`, `tree_size_fails`.
Gap: positions of all fields of tables and structs; sizes of numbers and byte vectors; the trees
of structs, members of structs, tables, members of unions and list elements say -1, those of
lists 0.

### C109 SortBy sorts and keeps the elements (partial)

`sort.Sort` is any tree of `Less` and `Swap` calls (`SortAlg`); induction over the tree shows
that on the list it does what it does on the array (`sortRun_mix`, by the list programs of
C107), so an algorithm that sorts arrays sorts lists. That there is such an algorithm is shown
for the insertion sort Go uses for short lists. [Sort, Props/Sort]

Theorems: `sort_by_partial`, `sort_field_partial`, `insertionSort_sorts`, `isSorted_array`,
`sort_refuses`, `sort_scalar_fails`.
Gap: lists of tables of any depth made by any program with exchanges, any algorithm made of Less
and Swap calls that sorts arrays; the insertion sort of Go is proved to be one; lists of numbers
and structs are destroyed (C50).

### C110 Looking at a buffer comes to an end (partial)

The model counts nested calls (fuel); the theorems say that more fuel than a number computed
from the length of the buffer makes no difference. Offsets are unsigned, so everything a table
leads to lies behind it (`fieldAt_beyond`, `at_beyond`), and behind the end nothing can be read;
induction over the bytes left, for structs over their rank. [Props/Ends]

Theorems: `info_ends`, `walk_ends`, `allTree_ends`, `search_ends`, `walk_forever_fails`.
Gap: Info for every schema; TraverseInfo, AllTree and SearchInfo for schemas in which no struct
contains itself (else the walk never ends); the bound is on the depth of the calls, not on their
number.

### C111 A message in a stream reads as in memory (partial)

The accessors are written once more as programs that read (`Rd`), which can be run on a buffer
in memory and on a stream; run in memory they are proved to be the accessors of the model
(`runM_fieldAt`, `runM_at`, ...). Tidy reads (each new, or inside what was read) see on a stream
what they see in memory (`program_run`, from the loading invariant of C25). A program logic
(`Tri`) shows that every accessor of a node of a well-formed message (`Layout`, a specification
in terms of bytes) reads whole pieces, so any sequence of calls is tidy. `stream_value_partial`
shows by induction over the value that what the library builds, saves and edits is such a
message: the pieces of a table stand in front of those it leads to. [StreamNode,
Props/StreamValue, Props/StreamExact, Props/StreamNode, Props/StreamLayout]

Theorems: `stream_calls_partial`, `stream_value_partial`, `stream_edited_partial`,
`stream_program_partial`, `int8_stream_fails`, `stream_seq_fails`.
Gap: messages of the library (values of C105 of any depth, also after edits of C97, with byte
vectors of less than 16 MiB); others: files with random access, messages whose pieces (numbers,
vtable entries, byte vectors) do not overlap and are of less than 16 MiB, vtables in front of
their tables and with an entry for every field, no int8 fields (which panic); any other program
whose reads are tidy; readers without random access deliver zeros.

### C112 Handles of one message agree (partial)

`Shared` has the buffers, and the handles with the buffer each points to. The place of the table
at the end of any path is a function of the bytes (`startOf`), and a setting in place anywhere
in the message leaves it as it is (`start_edit`, induction over the path of the setting;
elements of a list do not overlap, `lctx_apart`), so old handles stay at their tables; the
layout invariant of C97 does the rest. [Handles, Props/Handles]

Theorems: `handles_agree_partial`, `absent_detaches`, `absent_through_handle_fails`.
Gap: messages of the library (values of C105 of any depth, also after edits of C97), handles of
tables, settings of scalars and structs that are there; settings of fields that are not there
are seen only through the handle they are made through, and lost when the message is saved
through another.

### C113 A node can be used again (partial)

`cacheElm` and `cacheField` are the argument after the call: its size is filled in. A size that
is right changes nothing (`setAt_size`, `reuse_field`); settings of fields that are there ignore
the size of the receiver (`setScalar_size`) and keep the length of the data (`with_data`), so by
induction the list is the one C105 gives for fresh nodes. [Props/Reuse]

Theorems: `reuse_append_partial`, `reuse_field`, `reuse_grown_fails`.
Gap: tables of any depth appended again and again, setting scalars and structs that are there in
between; anything stored in fields again unchanged; a table that grew since it was first stored
is stored cut off (violation).

### C114 A schema that is not accepted is not generated from (partial)

`PegTape` transcribes the recogniser with its variables: position, array of tokens and index; a
failure sets position and index back but leaves the array. `Ref` relates a rule of `PegTape` to
the same rule of `Peg` (fails together and keeps what is below the index, or stands behind the
derivation with its tokens stored from the index on); every combinator preserves it, so every
rule of the grammar has it. Repetition needs that the repeated rule consumes (`Eats`). For texts
with an error the tokens of the declarations before it are below the index and stay
(`tokens_before_error`); what failed attempts leave behind completes no declaration, because the
completing action is the last of its rule (`Quiet`, `Calm`, `minor_exec`). For `include` every
rule tried stores only rule tokens (`RulesOnlyAt`). [PegTape, PegTapeLemmas, PegStale,
Props/BadSchema]

Theorems: `recogniser_refines`, `accepted_main`, `accepted_print`, `bad_schema_keeps`,
`bad_schema_word`, `bad_schema_refused_fails`, `rejected_declaration_runs_fails`,
`include_drops_schema`, `missing_file_fails`.
Gap: the first sentence is proved for every text; the second is violated: after an error the
generator runs on everything stored so far, so exactly the declarations before the error are
generated (for every schema text and error), other actions of the rejected declaration run, a
schema starting with include "file" is generated as if empty, and so is a file that cannot be
read.

### C115 The generated commands say what was declared (partial)

`GenText` prints the commands of `GenCmd` as `MakeGenGennies` does; `GenRead` is a reader after
the documentation of go generate (lines, words, quotes, escapes) and genny (`K=V,V` pairs),
written without the printer. The parameters are shown to be pairs in quotes (`params_pairs`),
read back by induction on pairs and characters (`read_pairs`, `words_quote`, `words_gap`), lines
by induction on the commands (`lines_read`). Names of printable schemas are safe: identifiers by
their character class, camel case by enumeration of 128 characters, finalisation adds `Type` and
`byte`. [GenText, GenRead, Props/GenText]

Theorems: `text_read_partial`, `text_schema_partial`, `text_fields_partial`, `numeral_dec`,
`text_backslash_fails`.
Gap: every schema state whose names contain no blank, quote, backslash, dollar, comma or equals
sign and whose unions have members; every printable schema whose root type has no backslash; a
backslash in root_type, which the grammar accepts, changes the name or makes the file unreadable
(violation).

### C116 fbs-query leaves behind the generated files and nothing else (partial)

`GenRun` models paths (`clean`, `pjoin`), a file system as a function from places to contents,
`go generate` by the reader of C115, genny as any function. `clean_resolve`: cleaning a path
keeps the place it leads to, by the invariant that the parts kept so far lead where the parts
read so far lead (`cleanStep_ok`); so joined paths lead on from the directory (`pjoin_resolve`).
The calls are run by induction on the commands (`runCalls_meant`), the invariant being that the
templates are still in their places. [GenRun, Props/GenRun] `run_error_fails`: after a call on
which genny fails the earlier files are there, the later ones are not, and both directories are
left with their contents.

Theorems: `run_partial`, `run_schema_partial`, `run_again_partial`, `clean_resolve`,
`pjoin_resolve`, `run_no_out_fails`, `run_hidden_fails`, `run_deletes_fails`, `run_error_fails`.
Gap: every directory name that is not empty and has no part beginning with a dot (but . and ..),
every working directory, file system and genny; violated without -out (commands go to /gen in
the root directory, nothing is generated), for names beginning with a dot (taken for a package)
and for files of the user in gen or genny of the output directory (deleted), and when genny
fails (gen and genny stay, the files after it are not made).

### C117 Inspection with values lists what the table holds (partial)

`InfoAll` is `FetchAll` with `Table`; the slices taken for `Debugf` arguments are modelled since
they can panic. Each run of it is a run of `FetchTable` with unlimited capacity giving the same
length (`allBody_fetch`, by induction on the description), so C63 carries over; the values are
those of the specification `ValueAt`, on all levels (`Lists`). `all_panics`: it succeeds if and
only if everything belonging to the table lies in the buffer (`LiesIn`). [InfoAll,
Props/InfoAll]

Theorems: `all_lists_partial`, `all_table_partial`, `all_length_partial`, `all_info_length`,
`all_table_order`, `all_panics`, `all_again_fails`, `all_vector_fails`, `all_unsigned_fails`,
`all_absent_fails`.
Gap: every buffer below 4 GiB, description, nesting and iteration order; violated by vectors
(nothing is listed for them, later values move to the front), absent fields (read from the start
of the table), unsigned numbers of four bytes (sign extended), and after GetFbsInfo on a table
with strings (FetchAll then does nothing).

### C118 The command line decides what is generated (partial)

`GenMain` models `flag.Parse` after package flag and `main` from the arguments to the exit
status. Each written setting is read as its setting whatever follows (`parse_written`), so a
command line is read as the fold of its settings (`parse_all`), of which the last of each kind
remains (`foldl_last`); `query_partial` composes this with C116 (`run_schema_partial`), C115 and
the parser. [GenMain, Props/GenMain]

Theorems: `flags_read`, `query_partial`, `query_unknown`, `query_help_fails`,
`query_single_fails`, `query_stray_fails`, `query_status_fails`.
Gap: from the command line to the files for every order and way to write the flags and every
printable schema, under the conditions of C116; violated by -h (the program goes on), by one
argument alone (nothing happens), by an argument before the flags (all flags are ignored,
commands are written to /gen), and by the exit status (0 although genny failed).

### C119 fbshelper writes one file for each declaration (partial)

`Helper` models `main` of the older generator with the file system of C116; text/template is any
function that may panic, fail or give a text. `writeItems_spec` is an induction over the
declarations (the template stays readable because it is not among the files written);
`helper_partial` applies it to structs and then to unions. The template for unions is placed by
`helper_union_template`. [Helper, Props/Helper]

Theorems: `helper_partial`, `helper_union_template`, `helper_usage`, `helper_vector`,
`helper_plain`, `helper_two_fails`, `helper_status_fails`, `helper_same_fails`,
`helper_short_fails`.
Gap: from the arguments to the files for every printable schema and every template engine, given
a named output directory, templates apart from the files written and a root type without a
backslash; text/template itself is a parameter; violated by exactly two arguments (panic after
the usage check), by a schema file that is missing (status 0, no files), by a struct and a union
of one name (one file), and by type names of one letter (the helpers of the templates panic).

## 5. Axioms of each theorem

* none: `calcBufSize_fails`, `data_writer_fresh`, `findTree_progress`, `innerd_fails`
* propext: `C_exact_fails`, `R_sized_fails`, `all_absent_fails`, `all_table_order`,
  `all_unsigned_fails`, `all_vector_fails`, `bool_round_trip`, `dl_gap_fails`,
  `dl_insertSpace_fails`, `dl_read_loses_fails`, `dl_single_partial`, `flatten_hole_fails`,
  `flatten_stream_fails`, `info_absent_fails`, `info_child_fails`, `info_vector_fails`,
  `insertBuf_fails`, `is_root_fails`, `next_next_read_fails`, `next_unloaded_fails`,
  `nl_read_fails`, `nl_update_lost_fails`, `nl_update_stale_fails`, `readAt_fails`,
  `read_skips_fails`, `root_name_first`, `seq_second_read_fails`, `short_vtable_fails`,
  `stream_end_fails`, `stream_overlap_fails`, `stream_unsized_fails`, `typed_refused`
* propext, Quot.sound: `addRDiff_disjoint_partial`, `addRDiff_fails`,
  `addRDiff_refuses_partial`, `addRDiff_sorted`, `aliases_in_order`, `all_again_fails`,
  `calcBufSize_short`, `clean_resolve`, `copy_extend_fails`, `copy_tracks_source_fails`,
  `dedup_drops`, `dl_insertSpace_partial`, `dump_blocks_fails`, `dump_nonblocking_partial`,
  `equal_complete_fails`, `equal_sound`, `findTree_abandon_fails`, `findTree_abandon_partial`,
  `findTree_complete`, `findTree_prefix`, `findTree_terminates`, `follow_union`,
  `gen_find_fails`, `gen_list_partial`, `gen_search_partial`, `info_length`,
  `info_length_order`, `info_vtable`, `insert_spec`, `insertionSort_sorts`, `interning`,
  `interning_stable`, `l2isEnable_iff`, `lenBuf_exact`, `len_aligned`, `mergeDiffs_fails`,
  `minOffset_least`, `moveLast_spec`, `next_capacity_fails`, `nlR_eq_R`,
  `nodeFieldSymbol_round_trip_partial`, `numeral_dec`, `own_vtable_partial`, `pjoin_resolve`,
  `readAt_contract_partial`, `readAt_flat_partial`, `root_name_fails`, `root_partial`,
  `root_refused`, `searchIndex_first`, `searchIndex_local`, `select_find_all`,
  `select_find_skip`, `seq_beyond_capacity_fails`, `seq_first_read_partial`,
  `shared_vtable_fails`, `streamOut_complete`, `streamOut_no_panic`, `streamOut_prefix`,
  `streamOut_progress`, `streamOut_terminates`, `struct_info_partial`, `struct_offset_partial`,
  `struct_packed`, `typed_short`, `union_member_partial`
* propext, Classical.choice, Quot.sound: `C_exact_partial`, `C_outside`,
  `R_never_stale_partial`, `R_sized_partial`, `U_zeroes`, `absent_detaches`,
  `absent_through_handle_fails`, `accepted_main`, `accepted_print`, `add_cached`, `add_direct`,
  `add_empty_direct`, `add_empty_fails`, `add_swapped_fails`, `add_tables_partial`,
  `allTree_ends`, `all_info_length`, `all_length_partial`, `all_lists_partial`, `all_panics`,
  `all_table_partial`, `append_TLI`, `at_dangling_fails`, `at_inside`, `at_refuses`,
  `at_tables`, `backend_first_fails`, `backend_history`, `backend_name_fails`,
  `backend_partial`, `backend_sticky_fails`, `bad_schema_keeps`, `bad_schema_refused_fails`,
  `bad_schema_word`, `basic_type`, `bufInfo_exact`, `built_table_list_partial`,
  `byte_list_fails`, `byte_list_partial`, `calcBufSize_partial`, `camel_iff`,
  `camel_total_fails`, `camel_total_partial`, `copy_exact`, `copy_extend_partial`,
  `copy_flatten_separate_partial`, `copy_stable_partial`, `dedup_invisible`, `default_fails`,
  `default_never_overwrites`, `direct_program`, `dl_content_partial`, `dl_merge_partial`,
  `dl_new`, `dl_read_partial`, `dup_independent`, `dup_separate`, `edit_absent_fails`,
  `edit_absent_set_fails`, `edit_deep_partial`, `edit_now_partial`, `edit_order_fails`,
  `edit_read_partial`, `edit_sessions_partial`, `edit_shared_fails`, `edit_sibling_fails`,
  `encoding_little_endian`, `enumField_first`, `enum_fails`, `enum_last_partial`,
  `enum_leak_fails`, `enum_members_fails`, `enum_parse`, `enum_value_fails`,
  `equal_absent_fails`, `equal_both_partial`, `equal_contents_fails`, `equal_deep_partial`,
  `equal_dup`, `equal_empty_vector`, `equal_equivalence`, `equal_groups`,
  `equal_list_both_partial`, `equal_list_deep`, `equal_messages_partial`,
  `equal_no_table_fails`, `equal_no_vector_fails`, `equal_refl_symm_partial`, `equal_same`,
  `equal_scalar_lists`, `equal_symm_fails`, `equal_tables_partial`, `equal_types_fails`,
  `equal_vector_absent_fails`, `equal_vectors_fails`, `finalize_iff`, `find_complete_partial`,
  `flags_read`, `flatten_preserves`, `flatten_stream_partial`, `fresh_table`, `fromBytes_src`,
  `fromScalar_src`, `genEqual_scalars_fails`, `genEqual_string_fails`, `gen_after_finalize`,
  `gen_commands`, `gen_iff`, `gen_schema_partial`, `generated_clash_fails`,
  `generated_lower_fails`, `generated_registry`, `getter_list_fails`, `getter_present`,
  `getter_struct_partial`, `getter_table_fails`, `getter_union_fails`, `getter_unnamed`,
  `handles_agree_partial`, `hasNext_alone_fails`, `hasNext_fails`, `hasNext_missed_fails`,
  `header_once_partial`, `helper_partial`, `helper_plain`, `helper_same_fails`,
  `helper_short_fails`, `helper_status_fails`, `helper_two_fails`, `helper_union_template`,
  `helper_usage`, `helper_vector`, `history_refines`, `include_drops_schema`, `include_iff`,
  `included_iff`, `info_ends`, `info_panic_order`, `info_value_fails`, `inner_iff`,
  `innerd_iff_partial`, `insertBuf_shifts_partial`, `insertSpace_shifts_partial`,
  `insert_at_table_fails`, `insert_outside_partial`, `insert_outside_vector_partial`,
  `insert_vtable_fails`, `int8_stream_fails`, `isSameTable_iff`, `isSorted_array`,
  `layout_fails`, `lenBuf_tight`, `len_absent_fails`, `len_deep_partial`, `len_exact_partial`,
  `len_message_partial`, `len_room_fails`, `len_rounds`, `list_deep_partial`,
  `list_mixed_partial`, `list_negative_fails`, `list_program_deep_partial`,
  `list_program_partial`, `list_type_group`, `log2_fails`, `log2_never_prints_fails`,
  `log2_restores_fails`, `log2_restores_partial`, `log2_runs_once`, `log_disabled`,
  `log_enabled`, `log_iff`, `mergeDiffs_coverage_partial`, `mergeDiffs_fixpoint`,
  `mergeDiffs_preserves_partial`, `mergeStable_overlay`, `message_align_fails`,
  `message_scalars`, `message_table_partial`, `message_union_partial`, `message_vector_partial`,
  `missing_file_fails`, `move_offsets_partial`, `move_outside`, `next_line_offset`,
  `next_memory_fails`, `next_next_offset_fails`, `next_one_partial`, `nl_flat_history_partial`,
  `nl_history_partial`, `nl_insert_space`, `nl_read_partial`, `nl_read_plain_partial`,
  `nl_update_exact_partial`, `nodeFieldSymbol_fails`, `nodeFieldSymbol_wraps_fails`,
  `op_prefix`, `out_files_field_fails`, `out_files_list_fails`, `out_files_partial`,
  `out_files_union_fails`, `parse_print`, `parse_user_type_fails`, `parse_user_type_partial`,
  `query_help_fails`, `query_partial`, `query_single_fails`, `query_status_fails`,
  `query_stray_fails`, `query_unknown`, `range_beyond_fails`, `range_refused`,
  `range_small_fails`, `range_stale_fails`, `range_swapped_fails`, `recogniser_refines`,
  `registry_early_fails`, `registry_exact`, `registry_late_fails`, `registry_order`,
  `registry_short_fails`, `rejected_declaration_runs_fails`, `reopen_scalars`,
  `reopen_table_partial`, `reopen_union_partial`, `reopen_vector_partial`, `result_types_fails`,
  `result_types_partial`, `reuse_append_partial`, `reuse_field`, `reuse_grown_fails`,
  `run_again_partial`, `run_deletes_fails`, `run_error_fails`, `run_hidden_fails`,
  `run_no_out_fails`, `run_partial`, `run_schema_partial`, `scalar_accessor_fails`,
  `scalar_accessor_partial`, `scalar_classified_fails`, `scalar_classified_partial`,
  `scalar_field`, `scalar_settings`, `schema_registry_partial`, `searchIndex_range`,
  `search_absent_fails`, `search_complete_partial`, `search_ends`, `search_sound`,
  `set_negative_fails`, `set_refused`, `set_round_trip`, `short_vtable_partial`,
  `signed_round_trip`, `slot_access`, `slots_lower_fails`, `slots_partial`, `slots_short_fails`,
  `slots_vector_fails`, `sort_by_partial`, `sort_field_partial`, `sort_refuses`,
  `sort_scalar_fails`, `split_add_append_fails`, `split_add_cursor_fails`,
  `split_append_at_fails`, `split_append_fails`, `split_bytes_partial`,
  `split_deep_bytes_partial`, `split_deep_partial`, `split_nested_fails`,
  `split_program_partial`, `split_swapped_fails`, `split_writer_fails`, `step_refines`,
  `stream_calls_partial`, `stream_capacity_partial`, `stream_edited_partial`,
  `stream_exact_partial`, `stream_forward_partial`, `stream_history_partial`,
  `stream_program_partial`, `stream_reads_fails`, `stream_reads_partial`, `stream_seq_fails`,
  `stream_value_partial`, `string_field`, `struct_fields`, `struct_info_fails`, `struct_list`,
  `struct_offset_fails`, `struct_small_fails`, `struct_store_fails`, `struct_stored_partial`,
  `sub_built_partial`, `sub_flat_partial`, `swap_direct_fails`, `swap_direct_partial`,
  `swap_negative_fails`, `swap_outside`, `swap_tables_partial`, `swapped_add_fails`,
  `swaps_permute_partial`, `swaps_scalar_fails`, `table_list_bytes_fails`,
  `table_list_empty_fails`, `table_list_partial`, `table_setting_fails`,
  `table_setting_partial`, `text_backslash_fails`, `text_fields_partial`, `text_read_partial`,
  `text_schema_partial`, `tree_extent_partial`, `tree_parents_partial`, `tree_size_fails`,
  `tree_struct_fails`, `typed_element_fails`, `typed_program`, `typed_set`, `typed_setters`,
  `typed_uint8_fails`, `union_canFollow`, `union_setting_fails`, `union_setting_partial`,
  `union_untagged_fails`, `unknown_field`, `unknown_info`, `unmarshal_absent_fails`,
  `unmarshal_message_partial`, `unmarshal_numbers_fails`, `unmarshal_partial`,
  `unmarshal_refused`, `unmarshal_type_fails`, `unsigned_round_trip`, `updateU_exact`,
  `user_type_fails`, `user_type_partial`, `value_deep_partial`, `vector_setting_fails`,
  `vector_setting_partial`, `walk_absent_fails`, `walk_complete`, `walk_cond`, `walk_ends`,
  `walk_forever_fails`, `walk_leaf_fails`, `walk_sound`, `writeAt_R`, `writeAt_reads_back`
