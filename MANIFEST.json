{
 "claims": [
  {
   "property": "C01",
   "status": "proved",
   "theorems": [
    "Fbs.Props.flatten_preserves"
   ],
   "note": "buffer without an attached stream; streams are C02"
  },
  {
   "property": "C02",
   "status": "partial",
   "theorems": [
    "Fbs.Props.flatten_stream_fails",
    "Fbs.Props.flatten_hole_fails",
    "Fbs.Props.flatten_stream_partial",
    "Fbs.Props.stream_history_partial"
   ],
   "note": "fails for bytes loaded outside the initial buffer and for holes below the last write; bytes of the initial buffer and written bytes are kept"
  },
  {
   "property": "C03",
   "status": "proved",
   "theorems": [
    "Fbs.Props.writeAt_reads_back",
    "Fbs.Props.writeAt_R"
   ],
   "note": ""
  },
  {
   "property": "C04",
   "status": "proved",
   "theorems": [
    "Fbs.Props.updateU_exact",
    "Fbs.Props.U_zeroes"
   ],
   "note": ""
  },
  {
   "property": "C05",
   "status": "proved",
   "theorems": [
    "Fbs.Props.history_refines",
    "Fbs.Props.step_refines"
   ],
   "note": "refinement to a byte map for all finite histories of WriteAt/Write/update window/Flatten/Dedup"
  },
  {
   "property": "C06",
   "status": "proved",
   "theorems": [
    "Fbs.Props.dedup_invisible",
    "Fbs.Props.dedup_drops"
   ],
   "note": ""
  },
  {
   "property": "C07",
   "status": "partial",
   "theorems": [
    "Fbs.Props.mergeDiffs_preserves_partial",
    "Fbs.Props.mergeDiffs_coverage_partial",
    "Fbs.Props.mergeDiffs_fails"
   ],
   "note": "the code violates the full statement (mergeDiffs_fails); proved for bytes on which the covering pending writes agree, and coverage in all cases"
  },
  {
   "property": "C08",
   "status": "proved",
   "theorems": [
    "Fbs.Props.mergeDiffs_fixpoint"
   ],
   "note": ""
  },
  {
   "property": "C09",
   "status": "proved",
   "theorems": [
    "Fbs.Props.mergeStable_overlay"
   ],
   "note": ""
  },
  {
   "property": "C10",
   "status": "partial",
   "theorems": [
    "Fbs.Props.include_iff",
    "Fbs.Props.included_iff",
    "Fbs.Props.inner_iff",
    "Fbs.Props.innerd_iff_partial",
    "Fbs.Props.innerd_fails"
   ],
   "note": "Innerd is wrong when the ends coincide (innerd_fails)"
  },
  {
   "property": "C100",
   "status": "partial",
   "theorems": [
    "Fbs.Props.backend_partial",
    "Fbs.Props.backend_history",
    "Fbs.Props.backend_name_fails",
    "Fbs.Props.backend_sticky_fails",
    "Fbs.Props.backend_first_fails"
   ],
   "note": "histories in which every message names one of the other backends; the name DoubleLayer is not recognised, the choice sticks to later messages, and only the first option counts"
  },
  {
   "property": "C101",
   "status": "partial",
   "theorems": [
    "Fbs.Props.root_name_first",
    "Fbs.Props.root_partial",
    "Fbs.Props.root_refused",
    "Fbs.Props.root_name_fails",
    "Fbs.Props.is_root_fails"
   ],
   "note": "programs with a single root type; a second root type gets the name of the first; IsRoot compares type names"
  },
  {
   "property": "C102",
   "status": "partial",
   "theorems": [
    "Fbs.Props.union_member_partial",
    "Fbs.Props.union_untagged_fails"
   ],
   "note": "member accessors agree with FollowUnion; setting the union alone leaves the tag unset, so nothing is selected"
  },
  {
   "property": "C103",
   "status": "partial",
   "theorems": [
    "Fbs.Props.move_offsets_partial"
   ],
   "note": "for lists with at least one element whose offsets each lie in one piece of the buffer (with no element movOffToTable panics; Add never calls it then)"
  },
  {
   "property": "C104",
   "status": "partial",
   "theorems": [
    "Fbs.Props.search_complete_partial",
    "Fbs.Props.search_sound",
    "Fbs.Props.search_absent_fails"
   ],
   "note": "a search that comes to its end reports everything, and only what satisfies the condition; an absent table makes it panic"
  },
  {
   "property": "C105",
   "status": "partial",
   "theorems": [
    "Fbs.Props.value_deep_partial",
    "Fbs.Props.list_deep_partial"
   ],
   "note": "any depth, any number of list elements; at most one field of variable length per table (a second one corrupts the first, see C48), every table, union member, element and list stored as it is or merged by Flatten first, byte vectors of the types must be set, scalars not set no wider than the data"
  },
  {
   "property": "C106",
   "status": "partial",
   "theorems": [
    "Fbs.Props.find_complete_partial"
   ],
   "note": "for messages every list of which has all its elements (else AllTree looks at a nil tree), and schemas without vectors in structs"
  },
  {
   "property": "C107",
   "status": "partial",
   "theorems": [
    "Fbs.Props.list_mixed_partial",
    "Fbs.Props.add_swapped_fails",
    "Fbs.Props.swapped_add_fails",
    "Fbs.Props.range_swapped_fails"
   ],
   "note": "any program of appends, copies, exchanges and Add over tables of any depth reads as the array, and so does every sub-list, as long as the last element of the lists given to Add is the one stored last; otherwise Add loses or overwrites elements, and so does appending to a sub-list"
  },
  {
   "property": "C108",
   "status": "partial",
   "theorems": [
    "Fbs.Props.tree_extent_partial",
    "Fbs.Props.tree_size_fails"
   ],
   "note": "positions of all fields of tables and structs; sizes of numbers and byte vectors; the trees of structs, members of structs, tables, members of unions and list elements say -1, those of lists 0"
  },
  {
   "property": "C109",
   "status": "partial",
   "theorems": [
    "Fbs.Props.sort_by_partial",
    "Fbs.Props.sort_field_partial",
    "Fbs.Props.insertionSort_sorts",
    "Fbs.Props.isSorted_array",
    "Fbs.Props.sort_refuses",
    "Fbs.Props.sort_scalar_fails"
   ],
   "note": "lists of tables of any depth made by any program with exchanges, any algorithm made of Less and Swap calls that sorts arrays; the insertion sort of Go is proved to be one; lists of numbers and structs are destroyed (C50)"
  },
  {
   "property": "C11",
   "status": "partial",
   "theorems": [
    "Fbs.Props.R_sized_partial",
    "Fbs.Props.R_never_stale_partial",
    "Fbs.Props.R_sized_fails"
   ],
   "note": "the code violates the full statement (R_sized_fails); proved when no write edge lies strictly inside the range, or when no write starts inside an earlier one"
  },
  {
   "property": "C110",
   "status": "partial",
   "theorems": [
    "Fbs.Props.info_ends",
    "Fbs.Props.walk_ends",
    "Fbs.Props.allTree_ends",
    "Fbs.Props.search_ends",
    "Fbs.Props.walk_forever_fails"
   ],
   "note": "Info for every schema; TraverseInfo, AllTree and SearchInfo for schemas in which no struct contains itself (else the walk never ends); the bound is on the depth of the calls, not on their number"
  },
  {
   "property": "C111",
   "status": "partial",
   "theorems": [
    "Fbs.Props.stream_calls_partial",
    "Fbs.Props.stream_value_partial",
    "Fbs.Props.stream_edited_partial",
    "Fbs.Props.stream_program_partial",
    "Fbs.Props.int8_stream_fails",
    "Fbs.Props.stream_seq_fails"
   ],
   "note": "messages of the library (values of C105 of any depth, also after edits of C97, with byte vectors of less than 16 MiB); others: files with random access, messages whose pieces (numbers, vtable entries, byte vectors) do not overlap and are of less than 16 MiB, vtables in front of their tables and with an entry for every field, no int8 fields (which panic); any other program whose reads are tidy; readers without random access deliver zeros"
  },
  {
   "property": "C112",
   "status": "partial",
   "theorems": [
    "Fbs.Props.handles_agree_partial",
    "Fbs.Props.absent_detaches",
    "Fbs.Props.absent_through_handle_fails"
   ],
   "note": "messages of the library (values of C105 of any depth, also after edits of C97), handles of tables, settings of scalars and structs that are there; settings of fields that are not there are seen only through the handle they are made through, and lost when the message is saved through another"
  },
  {
   "property": "C113",
   "status": "partial",
   "theorems": [
    "Fbs.Props.reuse_append_partial",
    "Fbs.Props.reuse_field",
    "Fbs.Props.reuse_grown_fails"
   ],
   "note": "tables of any depth appended again and again, setting scalars and structs that are there in between; anything stored in fields again unchanged; a table that grew since it was first stored is stored cut off (violation)"
  },
  {
   "property": "C114",
   "status": "partial",
   "theorems": [
    "Fbs.Props.recogniser_refines",
    "Fbs.Props.accepted_main",
    "Fbs.Props.accepted_print",
    "Fbs.Props.bad_schema_keeps",
    "Fbs.Props.bad_schema_word",
    "Fbs.Props.bad_schema_refused_fails",
    "Fbs.Props.rejected_declaration_runs_fails",
    "Fbs.Props.include_drops_schema",
    "Fbs.Props.missing_file_fails"
   ],
   "note": "the first sentence is proved for every text; the second is violated: after an error the generator runs on everything stored so far, so exactly the declarations before the error are generated (for every schema text and error), other actions of the rejected declaration run, a schema starting with include \"file\" is generated as if empty, and so is a file that cannot be read"
  },
  {
   "property": "C115",
   "status": "partial",
   "theorems": [
    "Fbs.Props.text_read_partial",
    "Fbs.Props.text_schema_partial",
    "Fbs.Props.text_fields_partial",
    "Fbs.Props.numeral_dec",
    "Fbs.Props.text_backslash_fails"
   ],
   "note": "every schema state whose names contain no blank, quote, backslash, dollar, comma or equals sign and whose unions have members; every printable schema whose root type has no backslash; a backslash in root_type, which the grammar accepts, changes the name or makes the file unreadable (violation)"
  },
  {
   "property": "C116",
   "status": "partial",
   "theorems": [
    "Fbs.Props.run_partial",
    "Fbs.Props.run_schema_partial",
    "Fbs.Props.run_again_partial",
    "Fbs.Props.clean_resolve",
    "Fbs.Props.pjoin_resolve",
    "Fbs.Props.run_no_out_fails",
    "Fbs.Props.run_hidden_fails",
    "Fbs.Props.run_deletes_fails",
    "Fbs.Props.run_error_fails"
   ],
   "note": "every directory name that is not empty and has no part beginning with a dot (but . and ..), every working directory, file system and genny; violated without -out (commands go to /gen in the root directory, nothing is generated), for names beginning with a dot (taken for a package) and for files of the user in gen or genny of the output directory (deleted), and when genny fails (gen and genny stay, the files after it are not made)"
  },
  {
   "property": "C117",
   "status": "partial",
   "theorems": [
    "Fbs.Props.all_lists_partial",
    "Fbs.Props.all_table_partial",
    "Fbs.Props.all_length_partial",
    "Fbs.Props.all_info_length",
    "Fbs.Props.all_table_order",
    "Fbs.Props.all_panics",
    "Fbs.Props.all_again_fails",
    "Fbs.Props.all_vector_fails",
    "Fbs.Props.all_unsigned_fails",
    "Fbs.Props.all_absent_fails"
   ],
   "note": "every buffer below 4 GiB, description, nesting and iteration order; violated by vectors (nothing is listed for them, later values move to the front), absent fields (read from the start of the table), unsigned numbers of four bytes (sign extended), and after GetFbsInfo on a table with strings (FetchAll then does nothing)"
  },
  {
   "property": "C118",
   "status": "partial",
   "theorems": [
    "Fbs.Props.flags_read",
    "Fbs.Props.query_partial",
    "Fbs.Props.query_unknown",
    "Fbs.Props.query_help_fails",
    "Fbs.Props.query_single_fails",
    "Fbs.Props.query_stray_fails",
    "Fbs.Props.query_status_fails"
   ],
   "note": "from the command line to the files for every order and way to write the flags and every printable schema, under the conditions of C116; violated by -h (the program goes on), by one argument alone (nothing happens), by an argument before the flags (all flags are ignored, commands are written to /gen), and by the exit status (0 although genny failed)"
  },
  {
   "property": "C119",
   "status": "partial",
   "theorems": [
    "Fbs.Props.helper_partial",
    "Fbs.Props.helper_union_template",
    "Fbs.Props.helper_usage",
    "Fbs.Props.helper_vector",
    "Fbs.Props.helper_plain",
    "Fbs.Props.helper_two_fails",
    "Fbs.Props.helper_status_fails",
    "Fbs.Props.helper_same_fails",
    "Fbs.Props.helper_short_fails"
   ],
   "note": "from the arguments to the files for every printable schema and every template engine, given a named output directory, templates apart from the files written and a root type without a backslash; text/template itself is a parameter; violated by exactly two arguments (panic after the usage check), by a schema file that is missing (status 0, no files), by a struct and a union of one name (one file), and by type names of one letter (the helpers of the templates panic)"
  },
  {
   "property": "C12",
   "status": "proved",
   "theorems": [
    "Fbs.Props.lenBuf_exact",
    "Fbs.Props.lenBuf_tight"
   ],
   "note": ""
  },
  {
   "property": "C13",
   "status": "partial",
   "theorems": [
    "Fbs.Props.insertBuf_shifts_partial",
    "Fbs.Props.insertSpace_shifts_partial",
    "Fbs.Props.insertBuf_fails"
   ],
   "note": "wrong with two or more pending writes straddling the position (insertBuf_fails); proved with at most one"
  },
  {
   "property": "C14",
   "status": "proved",
   "theorems": [
    "Fbs.Props.copy_exact"
   ],
   "note": "source range readable and no pending write of the source starting inside an earlier one"
  },
  {
   "property": "C15",
   "status": "partial",
   "theorems": [
    "Fbs.Props.copy_extend_partial",
    "Fbs.Props.copy_extend_fails"
   ],
   "note": "wrong when a pending write straddles the destination offset (copy_extend_fails)"
  },
  {
   "property": "C16",
   "status": "partial",
   "theorems": [
    "Fbs.Props.readAt_flat_partial",
    "Fbs.Props.readAt_contract_partial",
    "Fbs.Props.readAt_fails",
    "Fbs.Props.read_skips_fails"
   ],
   "note": "the code violates the io contracts (readAt_fails, read_skips_fails)"
  },
  {
   "property": "C17",
   "status": "proved",
   "theorems": [
    "Fbs.Props.dup_separate",
    "Fbs.Props.dup_independent",
    "Fbs.Props.default_never_overwrites"
   ],
   "note": "memory model; default, in-place and two-layer operations on either side; on the default backend also with copies between the two (default_never_overwrites); copies between in-place buffers are the subject of C19"
  },
  {
   "property": "C18",
   "status": "proved",
   "theorems": [
    "Fbs.Props.default_never_overwrites",
    "Fbs.Props.op_prefix"
   ],
   "note": "any number of buffers sharing memory"
  },
  {
   "property": "C19",
   "status": "partial",
   "theorems": [
    "Fbs.Props.copy_tracks_source_fails",
    "Fbs.Props.copy_stable_partial",
    "Fbs.Props.copy_flatten_separate_partial"
   ],
   "note": "fails for in-place backends, where Copy keeps the slices of the source; holds on the default backend, and on every backend once the destination is flattened"
  },
  {
   "property": "C20",
   "status": "partial",
   "theorems": [
    "Fbs.Props.nl_update_stale_fails",
    "Fbs.Props.nl_update_lost_fails",
    "Fbs.Props.nl_update_exact_partial",
    "Fbs.Props.nl_history_partial",
    "Fbs.Props.nl_flat_history_partial"
   ],
   "note": "fails for overlapping segments and for updates landing in the spare capacity of a segment; holds for separate segments and fitting updates, in particular for every history inside a buffer without journal"
  },
  {
   "property": "C21",
   "status": "partial",
   "theorems": [
    "Fbs.Props.nl_read_fails",
    "Fbs.Props.nl_read_partial",
    "Fbs.Props.nl_read_plain_partial",
    "Fbs.Props.nlR_eq_R"
   ],
   "note": "an empty slice is returned where a segment ends; right with a requested size, or elsewhere"
  },
  {
   "property": "C22",
   "status": "partial",
   "theorems": [
    "Fbs.Props.dl_insertSpace_fails",
    "Fbs.Props.dl_read_loses_fails",
    "Fbs.Props.dl_single_partial",
    "Fbs.Props.dl_content_partial",
    "Fbs.Props.dl_insertSpace_partial",
    "Fbs.Props.dl_new",
    "Fbs.Props.dl_merge_partial",
    "Fbs.Props.dl_read_partial",
    "Fbs.Props.dl_gap_fails"
   ],
   "note": "holds with at most one segment, and for reads with any number of segments when the first one starts lowest and does not share memory with the others (gaps between segments read as zeros afterwards, dl_gap_fails); merging a segment that starts before the first loses data; insertSpace inside a flat buffer does not move the bytes"
  },
  {
   "property": "C23",
   "status": "partial",
   "theorems": [
    "Fbs.Props.calcBufSize_partial",
    "Fbs.Props.calcBufSize_short",
    "Fbs.Props.calcBufSize_fails"
   ],
   "note": "the code violates the full statement; the exact failure condition is proved"
  },
  {
   "property": "C24",
   "status": "partial",
   "theorems": [
    "Fbs.Props.addRDiff_sorted",
    "Fbs.Props.addRDiff_refuses_partial",
    "Fbs.Props.addRDiff_disjoint_partial",
    "Fbs.Props.addRDiff_fails"
   ],
   "note": "sortedness always; overlap is only checked against the predecessor (addRDiff_fails)"
  },
  {
   "property": "C25",
   "status": "partial",
   "theorems": [
    "Fbs.Props.stream_end_fails",
    "Fbs.Props.stream_reads_fails",
    "Fbs.Props.stream_unsized_fails",
    "Fbs.Props.stream_reads_partial",
    "Fbs.Props.stream_forward_partial",
    "Fbs.Props.stream_capacity_partial",
    "Fbs.Props.stream_history_partial",
    "Fbs.Props.stream_exact_partial",
    "Fbs.Props.stream_overlap_fails"
   ],
   "note": "bytes inside the stream are always right, in any history of reads and writes; fails past the end (zeros), may panic for reads going backwards or without size; never panics for increasing offsets or inside the capacity; ranges of less than 16 MiB each of which lies in or is clear of the earlier ones are read whole, overlapping ones may be cut short"
  },
  {
   "property": "C26",
   "status": "partial",
   "theorems": [
    "Fbs.Props.seq_second_read_fails",
    "Fbs.Props.seq_beyond_capacity_fails",
    "Fbs.Props.seq_first_read_partial"
   ],
   "note": "only the first load at offset 0 works: later loads return zeros or never end"
  },
  {
   "property": "C27",
   "status": "partial",
   "theorems": [
    "Fbs.Props.next_next_offset_fails",
    "Fbs.Props.next_next_read_fails",
    "Fbs.Props.next_unloaded_fails",
    "Fbs.Props.next_capacity_fails",
    "Fbs.Props.next_line_offset",
    "Fbs.Props.next_one_partial"
   ],
   "note": "the second Next reads at 2*s1+s2; one Next is right when more than skip bytes are loaded"
  },
  {
   "property": "C28",
   "status": "proved",
   "theorems": [
    "Fbs.Props.insert_spec",
    "Fbs.Props.moveLast_spec",
    "Fbs.Props.minOffset_least"
   ],
   "note": ""
  },
  {
   "property": "C29",
   "status": "proved",
   "theorems": [
    "Fbs.Props.unsigned_round_trip",
    "Fbs.Props.signed_round_trip",
    "Fbs.Props.bool_round_trip",
    "Fbs.Props.encoding_little_endian",
    "Fbs.Props.set_round_trip"
   ],
   "note": "floats as bit patterns; flatbuffers Get/Write assumed little endian"
  },
  {
   "property": "C30",
   "status": "partial",
   "theorems": [
    "Fbs.Props.scalar_classified_partial",
    "Fbs.Props.scalar_classified_fails"
   ],
   "note": "uint8/byte/ubyte and float are misclassified (scalar_classified_fails)"
  },
  {
   "property": "C31",
   "status": "partial",
   "theorems": [
    "Fbs.Props.user_type_partial",
    "Fbs.Props.list_type_group",
    "Fbs.Props.user_type_fails"
   ],
   "note": "names ending in a builtin name after two characters are misclassified, one-letter names panic (user_type_fails)"
  },
  {
   "property": "C32",
   "status": "proved",
   "theorems": [
    "Fbs.Props.interning",
    "Fbs.Props.interning_stable"
   ],
   "note": ""
  },
  {
   "property": "C33",
   "status": "partial",
   "theorems": [
    "Fbs.Props.nodeFieldSymbol_round_trip_partial",
    "Fbs.Props.isSameTable_iff",
    "Fbs.Props.nodeFieldSymbol_fails",
    "Fbs.Props.nodeFieldSymbol_wraps_fails"
   ],
   "note": "unregistered names are not refused; more than 65536 names wrap"
  },
  {
   "property": "C34",
   "status": "proved",
   "theorems": [
    "Fbs.Props.fresh_table"
   ],
   "note": "every table type of the schema (offset-table layout); the schema tables are assumed well formed"
  },
  {
   "property": "C35",
   "status": "proved",
   "theorems": [
    "Fbs.Props.scalar_settings",
    "Fbs.Props.fromScalar_src"
   ],
   "note": "any sequence of settings of inline fields on a fresh table of total size below 2^16"
  },
  {
   "property": "C36",
   "status": "partial",
   "theorems": [
    "Fbs.Props.vector_setting_partial",
    "Fbs.Props.table_setting_partial",
    "Fbs.Props.union_setting_partial",
    "Fbs.Props.fromBytes_src",
    "Fbs.Props.vector_setting_fails",
    "Fbs.Props.table_setting_fails",
    "Fbs.Props.union_setting_fails"
   ],
   "note": "one byte vector, table or union value among any scalar and struct settings before and after it; stored tables are built by Init and scalar or struct settings; a second variable-length field destroys the first (vector_setting_fails, table_setting_fails); a tag without member makes storing the union value panic"
  },
  {
   "property": "C37",
   "status": "partial",
   "theorems": [
    "Fbs.Props.set_refused",
    "Fbs.Props.set_negative_fails"
   ],
   "note": "refused except for a nameless value at a negative index, which overwrites a struct field"
  },
  {
   "property": "C38",
   "status": "proved",
   "theorems": [
    "Fbs.Props.slot_access",
    "Fbs.Props.scalar_field",
    "Fbs.Props.string_field"
   ],
   "note": "conforming buffers in one piece (no journal), vtable before the table"
  },
  {
   "property": "C39",
   "status": "partial",
   "theorems": [
    "Fbs.Props.short_vtable_partial",
    "Fbs.Props.short_vtable_fails"
   ],
   "note": "the vtable length is never consulted; missing slots are absent only when they lie beyond the buffer"
  },
  {
   "property": "C40",
   "status": "partial",
   "theorems": [
    "Fbs.Props.shared_vtable_fails",
    "Fbs.Props.own_vtable_partial"
   ],
   "note": "every table with a negative soffset panics when opened; non-negative soffsets open"
  },
  {
   "property": "C41",
   "status": "partial",
   "theorems": [
    "Fbs.Props.struct_offset_partial",
    "Fbs.Props.struct_packed",
    "Fbs.Props.struct_offset_fails"
   ],
   "note": "fields are packed without alignment, so only padding-free structs are right"
  },
  {
   "property": "C42",
   "status": "partial",
   "theorems": [
    "Fbs.Props.struct_info_partial",
    "Fbs.Props.struct_info_fails"
   ],
   "note": "off by one: ValueInfo(i+1) describes field i"
  },
  {
   "property": "C43",
   "status": "proved",
   "theorems": [
    "Fbs.Props.len_aligned"
   ],
   "note": "relative to the end position computed by Info"
  },
  {
   "property": "C44",
   "status": "proved",
   "theorems": [
    "Fbs.Props.follow_union",
    "Fbs.Props.union_canFollow"
   ],
   "note": ""
  },
  {
   "property": "C45",
   "status": "partial",
   "theorems": [
    "Fbs.Props.equal_scalar_lists",
    "Fbs.Props.equal_refl_symm_partial",
    "Fbs.Props.equal_list_deep",
    "Fbs.Props.equal_list_both_partial",
    "Fbs.Props.equal_symm_fails"
   ],
   "note": "lists of scalars, and lists of tables and structs of any depth whose fields are all there: reflexive; symmetric only for equal lengths, at every depth"
  },
  {
   "property": "C46",
   "status": "partial",
   "theorems": [
    "Fbs.Props.at_refuses",
    "Fbs.Props.at_inside",
    "Fbs.Props.at_tables",
    "Fbs.Props.at_dangling_fails"
   ],
   "note": "every list of scalars or structs, and every well-formed vector of tables in a flat buffer; a dangling offset gives an error inside the list (at_dangling_fails)"
  },
  {
   "property": "C47",
   "status": "partial",
   "theorems": [
    "Fbs.Props.struct_list",
    "Fbs.Props.direct_program",
    "Fbs.Props.list_negative_fails"
   ],
   "note": "negative indices are not refused: SetAt(-1) overwrites the count (list_negative_fails)"
  },
  {
   "property": "C48",
   "status": "partial",
   "theorems": [
    "Fbs.Props.table_list_partial",
    "Fbs.Props.built_table_list_partial",
    "Fbs.Props.list_program_partial",
    "Fbs.Props.list_program_deep_partial",
    "Fbs.Props.append_TLI",
    "Fbs.Props.table_list_bytes_fails",
    "Fbs.Props.table_list_empty_fails"
   ],
   "note": "tables of scalar and struct fields, in flat buffers (compared byte by byte) or built by Init and SetFieldAt (compared field by field), and tables of any depth with one field of variable length each; the code panics on absent byte vectors and on tables without data"
  },
  {
   "property": "C49",
   "status": "partial",
   "theorems": [
    "Fbs.Props.swap_tables_partial",
    "Fbs.Props.list_program_partial",
    "Fbs.Props.list_program_deep_partial",
    "Fbs.Props.swap_outside",
    "Fbs.Props.swap_negative_fails"
   ],
   "note": "every well-formed vector of tables in a flat buffer and all non-negative indices; a negative index changes the count"
  },
  {
   "property": "C50",
   "status": "partial",
   "theorems": [
    "Fbs.Props.swap_direct_fails",
    "Fbs.Props.swap_direct_partial"
   ],
   "note": "the code zeroes both elements (swap_direct_fails)"
  },
  {
   "property": "C51",
   "status": "partial",
   "theorems": [
    "Fbs.Props.swaps_permute_partial",
    "Fbs.Props.list_program_partial",
    "Fbs.Props.list_program_deep_partial",
    "Fbs.Props.swaps_scalar_fails"
   ],
   "note": "vectors of tables; scalars are destroyed (C50)"
  },
  {
   "property": "C52",
   "status": "proved",
   "theorems": [
    "Fbs.Props.searchIndex_first",
    "Fbs.Props.searchIndex_range",
    "Fbs.Props.searchIndex_local"
   ],
   "note": ""
  },
  {
   "property": "C53",
   "status": "proved",
   "theorems": [
    "Fbs.Props.select_find_all",
    "Fbs.Props.select_find_skip"
   ],
   "note": "for a list whose At agrees with an array (C47, C48); the loop bound is the cached length"
  },
  {
   "property": "C54",
   "status": "partial",
   "theorems": [
    "Fbs.Props.list_program_partial",
    "Fbs.Props.list_program_deep_partial",
    "Fbs.Props.sub_built_partial",
    "Fbs.Props.sub_flat_partial",
    "Fbs.Props.range_refused",
    "Fbs.Props.range_beyond_fails",
    "Fbs.Props.range_small_fails",
    "Fbs.Props.range_stale_fails"
   ],
   "note": "lists of tables of any depth (one field of variable length per table) built by any program of appends, copies, adds and sub-lists; lists of scalars and structs built by programs (size a multiple of four) or in flat buffers; ranges that are negative, reversed or begin behind the end are refused for every list, those ending behind it are not; small elements panic; a changed sub-list yields stale sub-lists"
  },
  {
   "property": "C55",
   "status": "partial",
   "theorems": [
    "Fbs.Props.add_direct",
    "Fbs.Props.direct_program",
    "Fbs.Props.add_empty_direct",
    "Fbs.Props.add_tables_partial",
    "Fbs.Props.list_program_partial",
    "Fbs.Props.list_program_deep_partial",
    "Fbs.Props.add_empty_fails"
   ],
   "note": "lists of scalars and structs, and lists of tables of any depth, built by any combination of appending and adding; an empty source is refused with an error"
  },
  {
   "property": "C56",
   "status": "partial",
   "theorems": [
    "Fbs.Props.byte_list_partial",
    "Fbs.Props.byte_list_fails"
   ],
   "note": "count and elements; Bytes() panics"
  },
  {
   "property": "C57",
   "status": "proved",
   "theorems": [
    "Fbs.Props.findTree_prefix",
    "Fbs.Props.findTree_complete",
    "Fbs.Props.findTree_progress",
    "Fbs.Props.findTree_terminates"
   ],
   "note": ""
  },
  {
   "property": "C58",
   "status": "partial",
   "theorems": [
    "Fbs.Props.findTree_abandon_partial",
    "Fbs.Props.findTree_abandon_fails"
   ],
   "note": "with more than ten undelivered matches the producer goroutine is blocked forever (findTree_abandon_fails)"
  },
  {
   "property": "C59",
   "status": "partial",
   "theorems": [
    "Fbs.Props.dump_nonblocking_partial",
    "Fbs.Props.dump_blocks_fails",
    "Fbs.Props.streamOut_progress",
    "Fbs.Props.streamOut_terminates"
   ],
   "note": "without StreamOut the 101st Dump blocks forever (dump_blocks_fails)"
  },
  {
   "property": "C60",
   "status": "proved",
   "theorems": [
    "Fbs.Props.streamOut_prefix",
    "Fbs.Props.streamOut_complete",
    "Fbs.Props.streamOut_no_panic",
    "Fbs.Props.streamOut_progress",
    "Fbs.Props.streamOut_terminates"
   ],
   "note": "sequentially consistent memory; the diff library is a fixed function"
  },
  {
   "property": "C61",
   "status": "proved",
   "theorems": [
    "Fbs.Props.log_disabled",
    "Fbs.Props.log_enabled",
    "Fbs.Props.log_iff"
   ],
   "note": ""
  },
  {
   "property": "C62",
   "status": "partial",
   "theorems": [
    "Fbs.Props.l2isEnable_iff",
    "Fbs.Props.log2_runs_once",
    "Fbs.Props.log2_restores_partial",
    "Fbs.Props.log2_restores_fails",
    "Fbs.Props.log2_never_prints_fails",
    "Fbs.Props.log2_fails"
   ],
   "note": "the text is written back into the private builder, so the code violates the claim (log2_never_prints_fails)"
  },
  {
   "property": "C63",
   "status": "partial",
   "theorems": [
    "Fbs.Props.info_length",
    "Fbs.Props.info_length_order",
    "Fbs.Props.info_panic_order",
    "Fbs.Props.info_child_fails",
    "Fbs.Props.info_vector_fails",
    "Fbs.Props.info_absent_fails",
    "Fbs.Props.info_vtable",
    "Fbs.Props.info_value_fails"
   ],
   "note": "the vtable entries used are those of the wire format; a table whose first data bytes spell one of the last three positions makes the inspection panic; total length and panics are order independent; nested lengths are not (info_child_fails); of a vector only the last element is covered (info_vector_fails)"
  },
  {
   "property": "C64",
   "status": "partial",
   "theorems": [
    "Fbs.Props.slots_partial",
    "Fbs.Props.finalize_iff",
    "Fbs.Props.slots_lower_fails",
    "Fbs.Props.slots_vector_fails",
    "Fbs.Props.slots_short_fails"
   ],
   "note": "wrong for unions with lower-case names and vectors of unions, and one-letter type names panic"
  },
  {
   "property": "C65",
   "status": "partial",
   "theorems": [
    "Fbs.Props.camel_iff",
    "Fbs.Props.camel_total_partial",
    "Fbs.Props.camel_total_fails"
   ],
   "note": "panics exactly when a word between underscores is empty"
  },
  {
   "property": "C66",
   "status": "proved",
   "theorems": [
    "Fbs.Props.parse_print"
   ],
   "note": "printable class: namespace, root_type, tables, structs, unions, file_extension/file_identifier/attribute, with arbitrary layout at the positions the grammar allows, metadata and integer or boolean defaults; no user type name starting with a built-in name"
  },
  {
   "property": "C67",
   "status": "partial",
   "theorems": [
    "Fbs.Props.parse_user_type_partial",
    "Fbs.Props.basic_type",
    "Fbs.Props.parse_user_type_fails"
   ],
   "note": "a user type whose name starts with a built-in name is not parsed"
  },
  {
   "property": "C68",
   "status": "proved",
   "theorems": [
    "Fbs.Props.gen_commands",
    "Fbs.Props.gen_iff",
    "Fbs.Props.gen_after_finalize",
    "Fbs.Props.gen_schema_partial"
   ],
   "note": "numbered with the position in the finalised declaration; the slot claim from schema text is gen_schema_partial (limits of C64)"
  },
  {
   "property": "C69",
   "status": "partial",
   "theorems": [
    "Fbs.Props.out_files_partial",
    "Fbs.Props.out_files_field_fails",
    "Fbs.Props.out_files_list_fails",
    "Fbs.Props.out_files_union_fails"
   ],
   "note": "distinct when names do not clash"
  },
  {
   "property": "C70",
   "status": "partial",
   "theorems": [
    "Fbs.Props.scalar_accessor_partial",
    "Fbs.Props.scalar_accessor_fails"
   ],
   "note": "byte, ubyte, uint8 and float miss the type table"
  },
  {
   "property": "C71",
   "status": "partial",
   "theorems": [
    "Fbs.Props.parse_print",
    "Fbs.Props.layout_fails"
   ],
   "note": "free layout at the positions of the printable class; not before the first declaration and not around colons"
  },
  {
   "property": "C72",
   "status": "partial",
   "theorems": [
    "Fbs.Props.parse_print",
    "Fbs.Props.default_fails"
   ],
   "note": "digits, true and false are accepted; negative and fractional values are not"
  },
  {
   "property": "C73",
   "status": "partial",
   "theorems": [
    "Fbs.Props.parse_print",
    "Fbs.Props.enum_parse",
    "Fbs.Props.enum_last_partial",
    "Fbs.Props.enum_fails",
    "Fbs.Props.enum_leak_fails",
    "Fbs.Props.enum_members_fails",
    "Fbs.Props.enum_value_fails",
    "Fbs.Props.enumField_first"
   ],
   "note": "schemas without enums, and those whose enums have one member without a value and stand behind all tables, structs and unions, are parsed exactly; any other enum of one member becomes the first field of the next table or struct (or a member of the next union); no enum with two members or with a value is accepted; what is reported is given exactly for all enums with a type"
  },
  {
   "property": "C74",
   "status": "partial",
   "theorems": [
    "Fbs.Props.equal_scalar_lists",
    "Fbs.Props.equal_list_deep",
    "Fbs.Props.equal_contents_fails",
    "Fbs.Props.equal_vectors_fails",
    "Fbs.Props.equal_no_vector_fails",
    "Fbs.Props.equal_empty_vector",
    "Fbs.Props.equal_vector_absent_fails"
   ],
   "note": "Equal looks only at the lengths of lists of scalars, and not even at those if the lists are fields; elements of lists of tables are compared as far as the first goes, an absent list equals every list"
  },
  {
   "property": "C75",
   "status": "partial",
   "theorems": [
    "Fbs.Props.equal_tables_partial",
    "Fbs.Props.equal_deep_partial",
    "Fbs.Props.equal_same",
    "Fbs.Props.equal_both_partial",
    "Fbs.Props.equal_messages_partial",
    "Fbs.Props.equal_groups",
    "Fbs.Props.equal_absent_fails",
    "Fbs.Props.equal_no_table_fails",
    "Fbs.Props.equal_vectors_fails",
    "Fbs.Props.equal_types_fails"
   ],
   "note": "tables and structs of any depth whose fields are all present: true exactly if the values are the same but for vectors (those of tables are compared as far as the first goes, those of numbers and bytes not at all); panics on absent scalars and tables; tables of different types may be equal in one direction only (equal_types_fails)"
  },
  {
   "property": "C76",
   "status": "partial",
   "theorems": [
    "Fbs.Props.C_outside",
    "Fbs.Props.C_exact_partial",
    "Fbs.Props.C_exact_fails"
   ],
   "note": "bytes outside, length and panics in all states; the range itself when no pending write starts strictly inside it (C_exact_fails otherwise)"
  },
  {
   "property": "C77",
   "status": "partial",
   "theorems": [
    "Fbs.Props.equal_sound",
    "Fbs.Props.equal_equivalence",
    "Fbs.Props.equal_dup",
    "Fbs.Props.equal_complete_fails"
   ],
   "note": "sound and an equivalence; not complete (a buffer differs from its flattened self)"
  },
  {
   "property": "C78",
   "status": "proved",
   "theorems": [
    "Fbs.Props.bufInfo_exact"
   ],
   "note": ""
  },
  {
   "property": "C79",
   "status": "proved",
   "theorems": [
    "Fbs.Props.aliases_in_order"
   ],
   "note": ""
  },
  {
   "property": "C80",
   "status": "partial",
   "theorems": [
    "Fbs.Props.result_types_partial",
    "Fbs.Props.result_types_fails"
   ],
   "note": "declared field types without vectors of unions; ubyte, uint8 and float have no declared type"
  },
  {
   "property": "C81",
   "status": "partial",
   "theorems": [
    "Fbs.Props.message_scalars",
    "Fbs.Props.message_vector_partial",
    "Fbs.Props.message_table_partial",
    "Fbs.Props.message_union_partial",
    "Fbs.Props.value_deep_partial",
    "Fbs.Props.message_align_fails"
   ],
   "note": "scalars and structs in any number, and one byte vector, table, union value or list of tables among them, to any depth; alignment is not respected (message_align_fails)"
  },
  {
   "property": "C82",
   "status": "partial",
   "theorems": [
    "Fbs.Props.reopen_scalars",
    "Fbs.Props.reopen_vector_partial",
    "Fbs.Props.reopen_table_partial",
    "Fbs.Props.reopen_union_partial",
    "Fbs.Props.value_deep_partial",
    "Fbs.Props.header_once_partial"
   ],
   "note": "scalars and structs in any number, and one byte vector, table, union value or list of tables among them, to any depth; finishing an opened message leaves it alone if its root lies at 8..65535 and its vtable at 4 or later"
  },
  {
   "property": "C83",
   "status": "partial",
   "theorems": [
    "Fbs.Props.typed_set",
    "Fbs.Props.typed_refused",
    "Fbs.Props.typed_program",
    "Fbs.Props.typed_setters",
    "Fbs.Props.typed_uint8_fails",
    "Fbs.Props.typed_element_fails",
    "Fbs.Props.typed_short"
   ],
   "note": "every handle with the size of its type, and every program on a table of scalars and structs; fields of type uint8 have no size (typing error in the type table) and list elements have none, so setters refuse them"
  },
  {
   "property": "C84",
   "status": "partial",
   "theorems": [
    "Fbs.Props.insert_outside_partial",
    "Fbs.Props.insert_outside_vector_partial",
    "Fbs.Props.insert_at_table_fails",
    "Fbs.Props.insert_vtable_fails"
   ],
   "note": "positions up to the vtable or from the end of the buffer on; fails between the vtable and the end of the inline part (insert_at_table_fails, insert_vtable_fails)"
  },
  {
   "property": "C85",
   "status": "partial",
   "theorems": [
    "Fbs.Props.getter_present",
    "Fbs.Props.getter_unnamed",
    "Fbs.Props.getter_struct_partial",
    "Fbs.Props.getter_table_fails",
    "Fbs.Props.getter_list_fails",
    "Fbs.Props.getter_union_fails"
   ],
   "note": "present fields of every type; scalars, byte vectors and vectors of scalars also when absent; absent structs of tables built by the API; the accessor of an absent table or list destroys other fields, that of an absent union panics"
  },
  {
   "property": "C86",
   "status": "partial",
   "theorems": [
    "Fbs.Props.hasNext_missed_fails",
    "Fbs.Props.hasNext_alone_fails",
    "Fbs.Props.hasNext_fails",
    "Fbs.Props.next_memory_fails"
   ],
   "note": "violated: HasNext is false whenever another message follows and true for some messages that are alone; Next in memory never delivers another message (proved for all buffers)"
  },
  {
   "property": "C87",
   "status": "partial",
   "theorems": [
    "Fbs.Props.genEqual_scalars_fails",
    "Fbs.Props.genEqual_string_fails"
   ],
   "note": "violated: the generated Equal ignores the values of scalars (proved for all tables) and every field numbered beyond the number of scalar fields"
  },
  {
   "property": "C88",
   "status": "partial",
   "theorems": [
    "Fbs.Props.registry_exact",
    "Fbs.Props.registry_order",
    "Fbs.Props.registry_early_fails",
    "Fbs.Props.registry_late_fails",
    "Fbs.Props.registry_short_fails"
   ],
   "note": "every history in which fields have one type and one number and type names at least two characters, all registered before the first node is made; types registered later, or looked at before, have wrong groups; one-letter types panic"
  },
  {
   "property": "C89",
   "status": "partial",
   "theorems": [
    "Fbs.Props.generated_registry",
    "Fbs.Props.schema_registry_partial",
    "Fbs.Props.generated_lower_fails",
    "Fbs.Props.generated_clash_fails"
   ],
   "note": "schemas whose tables, fields and unions have names differing after capitalisation; from text for printable schemas; lists of tables with lower-case names are registered under another name, names differing in the first letter only clash"
  },
  {
   "property": "C90",
   "status": "partial",
   "theorems": [
    "Fbs.Props.split_deep_partial",
    "Fbs.Props.split_deep_bytes_partial",
    "Fbs.Props.split_program_partial",
    "Fbs.Props.split_bytes_partial",
    "Fbs.Props.split_swapped_fails",
    "Fbs.Props.split_append_fails",
    "Fbs.Props.split_append_at_fails",
    "Fbs.Props.split_writer_fails",
    "Fbs.Props.data_writer_fresh"
   ],
   "note": "tables of any depth (one field of variable length per table), files, appended tables merged and without tables or union members in them; swapped lists are cut at the wrong place, unmerged tables and elements of other lists are written wrongly, other writers lose appended tables"
  },
  {
   "property": "C91",
   "status": "partial",
   "theorems": [
    "Fbs.Props.split_deep_partial",
    "Fbs.Props.split_program_partial",
    "Fbs.Props.split_nested_fails",
    "Fbs.Props.split_add_append_fails",
    "Fbs.Props.split_add_cursor_fails",
    "Fbs.Props.add_cached"
   ],
   "note": "tables of any depth (one field of variable length per table), files, the added file rewound before; an appended table with a table or union member in it leaves uncounted bytes in the file, behind which Add writes; the result of Add cannot be appended to (cached size four too small); a file not rewound makes Add fail"
  },
  {
   "property": "C92",
   "status": "partial",
   "theorems": [
    "Fbs.Props.len_rounds",
    "Fbs.Props.unknown_info",
    "Fbs.Props.unknown_field",
    "Fbs.Props.len_message_partial",
    "Fbs.Props.len_deep_partial",
    "Fbs.Props.len_exact_partial",
    "Fbs.Props.len_absent_fails",
    "Fbs.Props.len_room_fails"
   ],
   "note": "always the extent rounded up to 8; the extent is the number of bytes for values of any depth (see C105) whose root holds no table or union member and no absent scalars wider than the data; a stored table leaves as many unused bytes behind it, which are part of the message but not of Len"
  },
  {
   "property": "C93",
   "status": "proved",
   "theorems": [
    "Fbs.Props.nl_insert_space"
   ],
   "note": ""
  },
  {
   "property": "C94",
   "status": "partial",
   "theorems": [
    "Fbs.Props.struct_fields",
    "Fbs.Props.struct_stored_partial",
    "Fbs.Props.struct_store_fails",
    "Fbs.Props.struct_small_fails"
   ],
   "note": "structs of scalars of at least four bytes; stored in a table after merging; stored without merging, fields behind an unset one are lost (struct_store_fails); Init panics for smaller structs"
  },
  {
   "property": "C95",
   "status": "partial",
   "theorems": [
    "Fbs.Props.walk_complete",
    "Fbs.Props.walk_sound",
    "Fbs.Props.walk_cond",
    "Fbs.Props.walk_absent_fails",
    "Fbs.Props.walk_leaf_fails"
   ],
   "note": "a walk that comes to its end visits exactly what is reached; any absent vector makes it panic; struct members are reported at the place and with the size of the member before, absent scalars at the place of the table"
  },
  {
   "property": "C96",
   "status": "partial",
   "theorems": [
    "Fbs.Props.tree_parents_partial",
    "Fbs.Props.tree_struct_fails"
   ],
   "note": "the parent stands where the owner stands and is the owner if nothing else stands there; the first struct of a list stands where the list stands, and its members go to the list"
  },
  {
   "property": "C97",
   "status": "partial",
   "theorems": [
    "Fbs.Props.edit_deep_partial",
    "Fbs.Props.edit_now_partial",
    "Fbs.Props.edit_sessions_partial",
    "Fbs.Props.edit_read_partial",
    "Fbs.Props.edit_absent_fails",
    "Fbs.Props.edit_absent_set_fails",
    "Fbs.Props.edit_sibling_fails",
    "Fbs.Props.edit_order_fails",
    "Fbs.Props.edit_shared_fails",
    "Fbs.Props.move_outside"
   ],
   "note": "proved for messages of any depth built by the API with one field of variable length per table, every vector present, settings of one table per session in an order that starts with an absent field or sets present fields only; read by the API and as flatbuffers; otherwise violated: a message with any absent vector cannot be edited at all (panic); with an absent table in front, editing a table corrupts its right neighbour; two fields overwritten before one is added lose a vector behind them; tables sharing a virtual table corrupt each other; missing: several fields of variable length in one table, messages of other programs"
  },
  {
   "property": "C98",
   "status": "partial",
   "theorems": [
    "Fbs.Props.unmarshal_partial",
    "Fbs.Props.unmarshal_message_partial",
    "Fbs.Props.unmarshal_refused",
    "Fbs.Props.unmarshal_absent_fails",
    "Fbs.Props.unmarshal_numbers_fails",
    "Fbs.Props.unmarshal_type_fails"
   ],
   "note": "scalars, and byte vectors that are present; an absent byte vector, every vector of numbers, and Go fields of another type make it panic"
  },
  {
   "property": "C99",
   "status": "partial",
   "theorems": [
    "Fbs.Props.gen_list_partial",
    "Fbs.Props.gen_search_partial",
    "Fbs.Props.gen_find_fails"
   ],
   "note": "everything but the case that nothing is found: Find and Search then hand out a node with nothing in it instead of nil"
  }
 ]
}