c("C01", "proved", "blob_roundtrip")
c("C02", "proved", "blob_canonical")
c("C03", "proved", "blob_short blob_short_err blob_negative")
c("C04", "proved", "tree_roundtrip")
c("C05", "proved", "tree_bytes tree_decoded")
c("C06", "proved", "tree_duplicate")
c("C07", "partial", "tree_truncated_partial tree_truncated_header tree_truncation_accepted",
  "False of the code as stated: a tree cut inside an entry before its hash decodes as the shorter tree (tree_truncation_accepted). Cuts inside a hash or inside the header are rejected.")
c("C08", "proved", "tree_lookup_iteration")
c("C09", "proved", "tag_roundtrip")
c("C10", "partial", "tag_bytes_partial tag_unknown_header_lost tag_without_tagger_changed tag_empty_message_changed tag_bytes_exact",
  "False of the code as stated: tags without tagger, with an empty message or with unknown headers change. tag_bytes_exact says exactly which well-formed tags are reproduced.")
c("C11", "proved", "commit_roundtrip")
c("C12", "partial", "commit_bytes_partial commit_reencode commit_git_order_changed commit_bytes_exact",
  "False of the code as stated: headers in another order than the encoder's (git writes the signature after unknown headers such as HG:extra, merge tags before encoding, ...) change. Identity is proved for the encoder's order; commit_bytes_exact proves that no other order is reproduced.")
c("C13", "proved", "commit_message_verbatim tag_message_verbatim commit_message_any tag_message_any",
  "The first two for header blocks of the usual form, the message also empty; the last two for every accepted stream with a message that is not empty.")
c("C14", "proved", "commit_parents commit_parents_encoded")
c("C15", "proved", "encode_size encode_size_blob encode_size_written",
  "encode_size_written is for every node and every writer that keeps the io.Writer contract.")
c("C16", "proved", "decoded_links decoded_link_missing")
c("C17", "proved", "commit_bad_reference tag_bad_reference ref_iff")
c("C18", "proved", "sha_to_link sha_to_link_injective sha_to_link_rejects")
c("C32", "proved", "commit_signature commit_signature_rejected commit_signature_opening_lost",
  "Holds for PGP signatures. Other signature kinds are rejected, and text after 'gpgsig ' on the first line is not kept (commit_signature_opening_lost).")
c("C33", "proved", "commit_other_headers")
c("C34", "partial", "commit_merge_tags commit_mergetag_swallows",
  "Proved for merge tags with the separator line; a merge tag without it swallows the following headers (commit_mergetag_swallows).")
c("C36", "partial", "commit_truncation_accepted commit_truncation_headers_accepted tag_truncation_accepted commit_unterminated_signature commit_truncated_mergetag commit_truncation_exact tag_truncation_exact",
  "False of the code as stated: truncation between headers or inside the message is accepted. The last two theorems say exactly which truncations of well-formed objects are accepted, and as what.")
c("C42", "proved", "size_header size_header_rejects size_header_objects")

c("C43", "proved", "decoded_from_stream")
c("C19", "proved", "gitString_personText person_roundtrip person_injective person_parsed_stable")
c("C20", "proved", "person_git_line person_line_preserved person_line_changed",
  "Lines git does not write, such as doubled spaces, can change (person_line_changed); person_line_preserved says exactly which are kept.")
c("C21", "proved", "parse_no_panic decode_no_panic person_no_panic block_no_panic")
c("C22", "proved", "decode_terminates loops_bounded reads_linear reads_linear_decode",
  "reads_linear: at most one ReadString/ReadLine/ReadFull call per byte of input, and one more.")
c("C24", "proved", "read_failure read_failure_any",
  "read_failure for the abstract stream, read_failure_any for every io.Reader that never reports EOF, also with errors that come together with data. Readers that fail once and then report EOF are C57.")
c("C25", "proved", "decode_parse decode_builder compressed_parse")
c("C26", "proved", "block_exact block_cidv1 block_hash_unchecked",
  "The hash itself is not compared with the data (block_hash_unchecked).")
c("C27", "proved", "type_word type_word_unknown type_word_missing")
c("C28", "proved", "object_roundtrip encode_injective encode_type encode_ambiguous",
  "For well-formed objects. A line feed inside a field can forge a header (encode_ambiguous). Blobs are left out of encode_type, as a blob node holds its own header.")
c("C30", "partial", "reencode_partial reencode_panics",
  "False of the code: a decoded commit without author or committer makes Encode panic. Proved: exactly those decoded objects panic.")
c("C23", "partial", "delivery_any delivery_prompt delivery_matters singles_delivers singles_prompt delivery_eof delivery_eof_decode delivery_two delivery_error endsFull_short endsFull_cr delivery_parse delivery_decode delivery_irrelevant chunks_irrelevant_partial script_delivers eager_cr_differs eager_error_differs",
  "False of the code in two corners: a last line of exactly one buffer ending in CR delivered with EOF (eager_cr_differs), and a non-EOF error delivered with the last bytes of a blob (eager_error_differs). delivery_any says for every io.Reader that these are the only ones: otherwise the result is that of the stream of bytes, and in the corners it is one of two. delivery_matters says exactly for which streams up to EOF the reader does not matter. delivery_eof: up to EOF, the reader does not matter at all if no line is as long as the buffer, or the stream does not end in CR.")
c("C35", "partial", "buffer_size_irrelevant_partial buffer_size_message long_line_splits long_line_forges_parent fold_commit fold_tag fold_commit_short_message fold_exists fold_unique fold_short crlf_line_ends_header",
  "False of the code: a header line as long as the buffer is split, and its tail is taken for another header (long_line_forges_parent). Proved: lines shorter than the buffer, and messages, do not depend on the buffer size. fold_commit and fold_tag say what becomes of every other input: the result is that of the same text with long lines folded, read with a larger buffer, but for the message, which is not folded.")
c("C29", "proved", "encode_writer encode_writer_panic encode_room dishonest_writer_undetected",
  "For writers that keep the io.Writer contract; a writer that reports a full write after a short one is not noticed (dishonest_writer_undetected).")
c("C41", "proved", "iteration_matches_lookup iteration_matches_lookup_repr iter_entries iter_typed iter_repr iter_nodup iter_length iter_reprLength")
c("C38", "proved", "build_person build_treeEntry build_tag build_commit_sound build_commit_iff build_commit_own build_repr build_repr_commit build_repr_commit_panics tree_assign_map_panics tree_assign_empty",
  "Exact for persons, tree entries and tags. For commits: success implies the schema (build_commit_sound) and build_commit_iff says exactly which nodes are accepted, but the converse of the schema fails, as a map for author or committer panics (build_repr_commit_panics).")
c("C31", "partial", "encode_typed encode_representation_partial encode_representation_commit encode_representation_iff encode_representation_differs",
  "Proved for blobs, trees and tags. False of the code for commits: Encode of the representation view of any commit panics (encode_representation_commit).")
c("C37", "partial", "encode_dispatch encode_foreign encode_foreign_tag encode_foreign_tag_exact encode_foreign_tag_message_first encode_panic_cause encode_list_panics encode_foreign_commit_panics",
  "The dispatch and what success means are proved. 'Never a panic' is false of the code; encode_panic_cause lists every way to panic.")
c("C39", "partial", "tree_names_distinct_partial tree_names_not_distinct tree_names_distinct_iff tree_refuses",
  "False of the code: the key assembler does not check for repeats (tree_names_not_distinct). Proved: callers that only use AssembleEntry get distinct names, and tree_names_distinct_iff says exactly when names repeat.")
c("C40", "proved", "tree_build tree_lookup_last_row tree_lookup_finished tree_add_refines",
  "For every growth policy of append and every sequence of calls. Callers that keep a child assembler of the value assembler and use it after the value is finished are C78, C79 and C80.")
c("C44", "partial", "decode_into decode_into_partial decode_into_tree_panics",
  "False of the code: a tree builder panics when the stream holds a commit or a tag (decode_into_tree_panics). decode_into says what happens for every prototype and stream.")
c("C45", "partial", "settle_partial settle_exceptions decoded_commit_ok decoded_tag_ok",
  "False of the code in the cases of settle_exceptions: values ending in CR, a timezone without a date, an email word beginning with '<', missing references, a continuation line moved behind a merge tag. Proved for all other decoded objects (lines shorter than the buffer); C73 says that these exceptions are exactly all, and what holds of longer lines (settle_fits).")
c("C46", "proved", "builder_sound builder_complete makes_unique built_complete",
  "That the model, which keeps values under construction apart, is right about the assemblers in memory is C74; handles of children that are already left behind are the subject of C47 and C75. Trees have their own model (C39, C40, C77).")
c("C47", "partial", "built_refuses built_stays stale_repr_overwrites stale_repr_refused stale_typed_harmless second_assign",
  "Proved for the builder and the handles still open. False of the code for a kept handle of a required field of a representation builder (stale_repr_overwrites; stale_repr_refused and stale_typed_harmless cover all other kept handles of fields), and for AssignNode of a map after AssignNode of a typed node (second_assign). One call on a kept handle is covered here; C76 covers every series of calls on every handle, C83 and C84 with AssignNode of any node among them, and they say for which types and views the value stays.")
c("C48", "partial", "path_lookup path_lookup_decoded path_panics path_no_panic_partial path_negative_panics list_iteration list_iteration_elems list_index_range list_overread",
  "False of the code for negative numbers: LookupByIndex has no lower bound check, so a path such as parents, -1 panics on every commit (path_negative_panics). path_panics says exactly when a path panics; the rest is proved.")
c("C49", "partial", "struct_lookup_node list_lookup_node tree_lookup_node_partial tree_lookup_node_panics",
  "False of the code for trees: LookupByNode panics for every key that is not of the package's String type (tree_lookup_node_panics). Proved for structs, lists and String keys.")
c("C50", "proved", "blob_accepts tree_accepts treeTail_iff",
  "Equivalences: every stream, accepted or not. The tree's map is given by its rows.")
c("C51", "proved", "tag_accepts head_unique",
  "Equivalence over the grammar in Spec/Accept. Buffers of at least 2 bytes; bufio uses at least 16.")
c("C52", "proved", "commit_accepts blocks_unique",
  "Equivalence over the grammar in Spec/Accept. Buffers of at least 2 bytes; bufio uses at least 16.")
c("C53", "proved", "person_accepts person_rejects", "Equivalence for every line.")
c("C54", "proved", "tag_header_order commit_header_order",
  "Pairs of streams compared through their headers; header blocks are unique by blocks_unique and head_unique.")
c("C55", "proved", "slices_valid slices_valid_decode memBuf_lawful slices_buffer slices_stream slices_no_leak stale_slice",
  "The decoders are modelled a second time with slices in place of lines (Model/Alias). stale_slice shows that a kept slice does change.")
c("C56", "partial", "list_nodes_unchanging_partial tree_nodes_unchanging_partial people_nodes_unchanging_partial list_node_changes list_not_unchanging list_node_grows tree_source_changes tree_not_unchanging commit_author_changes people_not_unchanging",
  "False of the code: AssignNode of a node of another type does not look at the mark, so a builder that was given a node can be used again and writes into what it shares with that node. Proved for callers that never call an assembler that holds a value. tree_source_changes and commit_author_changes hold for every tree and commit.")
c("C57", "partial", "first_error_partial fleeting_error_lost fleeting_error_lost_tag flaky_failsFirst",
  "False of the code for commits and tags: ReadLine returns the part of a line read before the error and drops the error; if the next Read reports EOF the cut object is accepted (fleeting_error_lost). Proved for trees and blobs. What happens to commits and tags instead is C72.")
c("C58", "partial", "typed_fields typed_optional typed_optional_fields typed_list_lookup typed_list_range typed_list_maybe_panics typed_tree_lookup typed_list_iteration typed_list_nil_loop typed_tree_iteration",
  "False of the code for LookupMaybe of the three list types: past the end it returns a nil MaybeX, and every method of it panics (typed_list_maybe_panics). Negative indices and nil keys panic. Everything else is proved.")
c("C59", "proved", "stdout_exact stdout_accepted stdout_delivery",
  "The lines are printed unescaped. That blobs, trees and commits print nothing rests on their code having no print statement.")
c("C60", "proved", "commit_truncation_exact commit_cut_item tag_truncation_exact commit_cut_reference commit_cut_encoding",
  "CommitCut and TagCut list what each kind of cut header means; it covers every prefix of every well-formed commit and tag.")
c("C61", "proved", "commit_bytes_exact tag_bytes_exact commit_reading_unique",
  "Well-formed is Item.Ok and TagItem.Ok of Spec/Objects, which allow any order and number of headers.")
c("C62", "proved", "tree_survives tag_survives_exact commit_survives_exact tag_survives commit_survives",
  "TagFits and CommitFits in Spec/Fits spell the condition out for lines of any length; tag_survives and commit_survives are the case of lines shorter than the buffer. Encoded objects are assumed shorter than 2^63 bytes. Blobs always survive (C01).")
c("C63", "proved", "refused_by_kind scalars_answer shape_by_kind lookups_refused answers_agree prototypes_from",
  "The set of appropriate kinds in ErrWrongKind is go-ipld-prime's and not modelled.")
c("C64", "proved", "node_conforms conforming_is_node views_agree decoded_conforms link_targets repeated_name_not_conforming",
  "A tree conforms exactly if the names of its rows are distinct; C39 shows how a caller can build one where they are not.")
c("C65", "proved", "graph_path graph_path_exact graph_panics",
  "Load and path traversal are go-ipld-prime's and modelled as far as they use the package. Well-formed is GitObj.Ok: any header order, a tree in every commit and an object in every tag.")
c("C66", "proved", "store_loaded store_grows store_block store_block_exact store_then_load_any store_then_load",
  "Store is go-ipld-prime's and modelled as encode, hash, keep. That another text gives another link needs the hash function to separate the two texts; this is a hypothesis of that part. store_then_load is the case of header lines shorter than the buffer of store_then_load_any.")
c("C67", "proved", "asm_refused asm_node_refused key_asm_refused refused_in_every_state other_kinds_refused",
  "That a refusal changes nothing in any state is proved over the call by call model of all types but Blob and Tree, whose refusing methods have no receiver state to change. The set of appropriate kinds in ErrWrongKind is not modelled.")
c("C68", "proved", "prototypes child_prototypes values_have_value_prototype copy_typed copy_type copy_repr",
  "The exceptions are part of the claim: AssignNode of commit and tree builders panics on such representations, see C38 and C39.")
c("C69", "proved", "calls_match_assign calls_match_assign_commit calls_never_panic calls_build_commit calls_build_tag calls_build_person calls_build_treeEntry assign_commit_panics",
  "Connects the two models of the assemblers, of AssignNode (Model/Assemble) and of single calls (Model/Calls). The decoder of the other codec is not modelled beyond the calls it makes; it stops at the first error.")
c("C70", "proved", "rebuild reads_feeds conforming_builds valOf_inj",
  "Without Blob, which is a single AssignBytes, and Tree, whose assembler is modelled apart (Model/TreeHeap).")
c("C71", "proved", "calls_build_tree calls_tree_lookup calls_tree_error calls_tree_never_panic calls_tree_distinct rebuild_tree",
  "Joins the tree assembler with its memory (Model/TreeHeap) to the tree entry assembler (Model/Calls).")
c("C72", "proved", "lapse_commit_any lapse_tag_any lapse_covers lapse_brink lapse_commit lapse_tag lapse_between_lines lapse_in_header flaky_failsOnce",
  "Says exactly what becomes of C57 for commits and tags. lapse_covers says which torn lines are covered, lapse_brink shows that if the last part fills the buffer the outcome is not fixed by the text. flaky_failsOnce shows that lists of chunks with one error are such readers.")
c("C73", "proved", "settle_exact settle_fits settle_partial",
  "Settled in Props/Settle spells the condition out for objects whose header lines are shorter than the buffer, ObjFits in Spec/Fits for all. The objects that Encode refuses or panics on are those of C30.")
c("C74", "proved", "current_handles",
  "Justifies the simplification of Model/Calls: Model/Handles has the tree of assemblers with their pointers and marks, and the memory.")
c("C75", "proved", "kept_handles",
  "The exceptions are part of the claim. HandlesSafe compares with the calls by depth; the counterexamples are the call sequences kept* in Props/Handles.")
c("C76", "proved", "built_lasts",
  "The exceptions are part of the claim. BuiltLasts (Spec/Handles) quantifies over all later calls of Model/Handles, which has AssignNode only with nodes of the assembler's own type (C83 and C84 have any node); the counterexamples are evaluated by the kernel.")
c("C77", "proved", "tree_sound tree_complete tree_unique",
  "The counterpart of C46 for trees. Handles kept past the entry they are for are C79 and C80.")
c("C78", "proved", "tree_current_handles",
  "Justifies the simplifications of Model/TreeCalls and of Model/TreeHeap's value assembler: Model/TreeHandles has table, map and assemblers in memory.")
c("C79", "proved", "tree_lasts tree_changes",
  "The exception is part of the claim. TreeLasts (Spec/TreeHandles) quantifies over all later calls of Model/TreeHandles.")
c("C80", "proved", "tree_unsafe tree_kept_name tree_kept_split",
  "A claim that misuse does harm: TreeHandlesSafe is the counterpart of the claim that C75 proves of other types; the call sequences are evaluated by the kernel.")
c("C81", "proved", "reset_as_new reset_tree_as_new acts_unreset actsTree_unreset",
  "Calls are those of Model/Foreign and Model/TreeForeign, with AssignNode of any node; acts_unreset and actsTree_unreset say that without resets the histories are those of C83 and C85. After Reset, handles of before are in the model as they are in the code: to assemblers without mark.")
c("C82", "proved", "reset_lets_go reset_tree_lets_go",
  "shown (Spec/Reset) reads the value through the pointer that Build returned, shownTree (Spec/TreeReset) the tree through its map and table. Calls as for C81.")
c("C83", "proved", "settled_steps",
  "Settled (Spec/Foreign) quantifies over all later calls of Model/Foreign: those of Model/Handles and AssignNode with any node. The exceptions in the representation are part of the claim; the counterexamples are evaluated by the kernel.")
c("C84", "proved", "settled_whole",
  "A claim that misuse does harm, and that it does none to scalars. The generated code sets the state of a map or list assembler only in Finish, not when a node is given whole, and its loop over another node does not look at the mark.")
c("C85", "proved", "tree_settled",
  "TreeSettled (Spec/TreeForeign) quantifies over all later calls of Model/TreeForeign, on the tree assembler, the entry assembler and its fields. A tree given to AssignNode is one that shares no memory with the builder.")
c("C86", "proved", "given_tree_shared given_tree_changes",
  "A claim that misuse does harm. shownTree (Spec/TreeForeign) is what the holder of the given tree sees: its own table, and the map, which in Go is one object for both, as it is then. The entries of the second node are nodes of the package; an example has one that is a plain map.")
c("C87", "proved", "rest_parse rest_iff blobs_in_a_row blobs_in_a_row_any",
  "rest_parse says for every reader that Model/Rest is Model/Decode with the reader that is left.")
c("C88", "proved", "assign_any assign_panics_only memory_matches_values memory_matches_any_showing assign_any_tree assign_tree tree_memory_matches",
  "taken (Spec/Taken) says what a node gives, without assemblers. The memory_matches theorems say that the model with memory (Foreign) and the model with values (Assemble, Builders) agree on every node: same value, same error, or a panic in both. Filled: nodes of the package's types have their required fields, which the Go types force and shows_whole proves.")
c("C89", "proved", "errors_truthful errors_have_details finish_names_missing wrong_unique tree_errors_truthful",
  "Wrong and WrongTree (Spec/Details) say what is wrong with a call, told from the calls that succeeded before (keysAt, typeAt) and the schema, without assembler states. The oddity of AssignNull is part of the claim. Of ErrWrongKind only the type name is covered.")
c("C90", "proved", "blob_memory blob_memory_stream blob_buffer sizes_exact sizes_pages",
  "Sizes (Spec/Reserve) is what is assumed of the runtime: arrays are as large as asked for and at most twice that. The growth of bytes.Buffer is that of the standard library as documented and is part of what is trusted. Memory of the header string and of the bufio.Reader is not counted.")
c("C91", "proved", "blob_changes node_keeps blob_is_slice blob_is_given decoded_private blob_protocol",
  "Reaches and NeverAsks (Spec/Blobs) are told from slices and acts. Nodes of other types are covered as far as they return a slice from AsBytes.")
c("C92", "proved", "deep_equal_reads deep_equal_comm deep_equal_alike deep_equal_same deep_equal_views deep_equal_objects deep_equal_encode",
  "DeepEqual is that of go-ipld-prime as documented and is part of what is trusted. Reads (Spec/Gen) says what is read from a node; Alike and Full (Spec/DeepEqual) are told from the values. Answers: from some depth of recursion on, the result is this one. Trees with repeated names are compared row by row.")
c("C93", "proved", "decode_any any_encode decode_map copy_equal tag_copy commit_copy commit_copy_absent tree_copy decode_scalar",
  "The builders of basicnode are those of go-ipld-prime as documented and part of what is trusted; whether its maps copy absent values is a parameter. The entries are those of the typed view, which Decode hands over.")
c("C94", "proved", "stack_sharp stack_enough stack_overflow tower_accepted stack_tags",
  "parseObjectIn d is ParseObject with room for d frames of decodeCommitLine; Err.fuel stands for the stack overflow. tower (Spec/Depth) is the text of the commit of merge tags. How many bytes a frame takes is not part of the claim.")
c("C95", "proved", "reencode_growth reencode_double growth_sharp grown_accepted grown_encoded",
  "The bound is 59 * body <= 84 * input + 7874. encObj is Encode on the decoded node (encode_typed).")
c("C96", "proved", "compressed_intact compressed_checked compressed_sound compressed_unchecked compressed_noticed",
  "The zlib reader is that of Go's standard library as far as its end is concerned (Model/Zlib); decompression is any reader that Delivers, and zlib.NewReader is assumed to have succeeded. AdlerIs (Spec/Zlib) is the checksum of RFC 1950. compressed_intact and compressed_sound exclude the corner of C23 (EndsFull).")
c("C97", "proved", "refused_because refused_reader accepted_or_wrong wrong_one eof_means eof_not_end",
  "Faulty (Spec/Faults) is told from the bytes with the grammars of C50 to C53. Errors are distinguished by kind, not by text.")
c("C98", "proved", "signed_exact signed_refused signed_other_format signed_unclosed signed_payload",
  "The formats are those of git's gpg-interface.c and RFC 4880, written down in Spec/Signed (Armour). Header lines are shorter than the buffer.")
c("C99", "proved", "select_object select_missing_commit select_missing_tag select_missing_never select_shows follow_exact",
  "SelectLinks and Load are those of go-ipld-prime as documented (Model/Select, Model/Graph). Selects: from some depth of recursion on, the result is this one. Reaches and GitObj.refs (Spec/Select) are told from the texts. Links are loaded with the prototype Any; what happens with the prototypes of typed links is C65. Where git itself reads other references in a commit that repeats its headers is C102.")
c("C100", "proved", "multi_kept multi_exact",
  "unknownFields (Spec/Multi) is git's reading of the bytes: lines before the first empty line, grouped by leading space. The commit starts with a known header, its signatures are indented as git writes them, and it has an author and a committer (else Encode panics, C30).")
c("C101", "proved", "shuffled_commit shuffled_tag shuffled_tree sorted_tree bytesLt_order lengthLt_order git_order_bytes dagjson_tree",
  "Of the codecs it is assumed that the data is kept up to the order of map entries (Shuffled, Spec/Sorted). The order of git (GitSorted) is that of base_name_compare in git's read-cache.c, with directories being the entries of mode 40000.")
c("C102", "proved", "git_refs git_refs_exact git_refuses git_message git_tag git_tree",
  "Git's reading (Spec/GitRead) is that of parse_commit_buffer and find_commit_subject in git's commit.c, parse_tag_buffer in tag.c and decode_tree_entry in tree-walk.c, for objects named by SHA-1 and without NUL in the headers. Header lines are those of the grammar of C52.")
c("C103", "proved", "fsck_person fsck_commit_exact fsck_commit fsck_tag",
  "What fsck accepts (Spec/Fsck) is that of fsck_ident, fsck_commit, fsck_tag_standalone and verify_headers in git's fsck.c, without what it only informs about; tags have no headers behind the tagger.")
c("C104", "proved", "transform_value transform_tree transform_tree_lookup transform_commit transform_top transform_same transform_tag_message transform_tree_row transform_tree_new transform_tree_missing transform_commit_missing transform_commit_repr transform_commit_repr_panics transform_commit_message",
  "FocusedTransform is that of go-ipld-prime with createParents false (Model/Transform), as it drives the assemblers; paths do not lead through links. Edited (Spec/Transform) is told from the node interface alone; what data denotes is that of Spec/Build (C38).")
c("C105", "proved", "work_result work_lines work_linear work_tree work_blob work_signature work_merge_message goGrow_grows work_needs_buffer",
  "Model/Work counts the steps; library functions are counted with the lengths of what they get and return. What bufio.Reader moves within its buffer and the texts of errors are not counted.")
c("C106", "proved", "written_commit written_plain written_tag",
  "Spec/GitWrite is written after ident.c, commit.c and builtin/tag.c of git, from memory. Trees and blobs are C05 and C02.")
c("C107", "proved", "word_64 word_same word_wide word_32 word_written",
  "Model/Word has the range of int as a parameter; for 64 bits it is the model of the other claims.")
c("C108", "proved", "encode_work_result encode_work_linear encode_work_least encode_work_decoded encode_work_long_link bufferGrow_grows",
  "The constant format strings and the copy of the struct of a commit (AssignNode) are not counted.")
c("C109", "proved", "verify_made verify_again verify_exact verify_unique verify_any_made verify_any",
  "Spec/Verify is written after parse_signed_commit in git's commit.c, from memory. Signatures of other formats are refused (C98). verify_any_made and verify_any are for all extra headers, the others for commits without further headers that begin with gpgsig. That of a tag is part of its message; tags are C124.")
c("C110", "proved", "built_refs built_message built_persons built_fsck built_tag built_tree git_tree_unique",
  "Spec/Built, Spec/GitRead and Spec/Fsck are written after git's sources, from memory. Which built values Decode reads back is C62.")
c("C111", "proved", "wide_commit wide_tag wide_tree wide_tree_written",
  "Blobs hold no references. When the condition of wide_tree fails the tree is refused or read as other rows (C50 says which).")
c("C112", "proved", "size_unshown same_blob same_tree many_inputs same_commit same_tag",
  "What git makes is described in Spec/GitWrite (C106). For arbitrary commits and tags C51 and C52 say what is read.")
c("C113", "proved", "sign_built sign_pgp_only",
  "Spec/Verify is written after parse_signed_commit in git's commit.c, from memory. When git finds the message is C110; whether Decode reads the signature back is C98.")
c("C114", "proved", "sign_tag tagSigned_unique armour_tagSig",
  "Spec/TagSign is written after parse_signature in git's gpg-interface.c, from memory. That Decode reads the message back whole is part of C51.")
c("C115", "proved", "value_outcome view_outcome encode_foreign_tag_exact tag_map_panics tag_map_fails commit_map_outcome other_outcome",
  "What a commit builder gives for a node is taken (Spec/Taken, C88). Errors are told apart by their class, as in the model: not exists, wrong kind, invalid key and so on.")
c("C116", "proved", "blob_survives blob_else blob_as_other other_as_itself blob_content bare_content",
  "Contents up to 2^63 - 1 bytes.")
c("C117", "proved", "blob_overread blob_takes_buffer next_decode inMemory_delivers inMemory_greedy",
  "Through the model of bufio.Reader (Model/Bufio). If the reader returns its last error together with data, that is EOF and the input does not end in CR.")
c("C118", "proved", "merge_out merge_ambiguous merge_in decoded_merge",
  "Header lines shorter than the buffer and not ending in CR, as in C106; decoded_merge for all inputs.")
c("C119", "proved", "merged_verify merged_signed made_merges",
  "Header lines shorter than the buffer and not ending in CR; commits with signatures that the package does not read are refused (C106).")
c("C120", "proved", "readme_commit_panics readme_commit_missing commit_form_refused readme_tag_fails tag_form_refused readme_tree_fails readme_tree_builds readme_blob never_shown",
  "The forms are those of /repo/README.md as plain maps (Spec/Readme). That JSON is parsed to these maps, or to these calls, is not modelled.")
c("C121", "proved", "again_garbage again_first again_second again_other again_unbuilt again_value again_named again_rival again_twice again_total",
  "Builders of commits and tags; builders of trees are C122, those of blobs C91 (blob_protocol). A pointer that is nil is loaded as a value without fields, where the code would dereference nil (again_named). That reading itself does not panic is C21.")
c("C122", "proved", "treeAgain_garbage treeAgain_first treeAgain_then treeAgain_last treeAgain_all treeAgain_total",
  "Builders of trees; those of commits and tags are C121, those of blobs C91 (blob_protocol). That a built node is the builder's own tree is by Build's code (6889-6894); the model has one tree per builder.")
c("C123", "proved", "given_exact given_lines given_commit given_tag",
  "PlainFile, LineFits and FitsBuffer are in Spec/Given; what git makes is Spec/GitWrite (C106), written from memory of git. Files are assumed shorter than 2^63 bytes. given_lines is about the lines before the first empty line.")
c("C124", "proved", "tag_verify_exact tag_verify_size tag_verify_kept tag_verify_made",
  "Where git finds the signature is Spec/TagSign (C114), written from memory of git. Files shorter than 2^63 bytes. tag_verify_kept is for signatures of a text that is not empty. Commits are C109.")
c("C125", "proved", "entry_call entries_exact entries_total entries_tree entries_delivery",
  "EntryCalls is the loop of the client; where the rest ends is EntryEnd in Spec/EntryStream. entries_delivery carries the others over to the buffered reader on any io.Reader that delivers the text and then its error; buffers from 2 bytes (bufio has at least 16).")
c("C126", "proved", "word_tag word_commit word_tree word_tag_commit word_commit_tag word_signed_tag",
  "Over the grammar of Spec/Accept (C50, C51, C52). Files that end with EOF. word_tag says that no buffer of at least 8 bytes reads what Encode wrote; bufio has at least 16.")
c("C127", "proved", "behind_tag behind_commit behind_closed behind_blob behind_tree behind_lost",
  "Streams that end with EOF. A commit or tag without an empty line behind its headers is left out, since the headers then go on (C51 and C52 say how), as is a tree that is itself cut off inside an entry. C87 says where the decoders stop reading, this one what they make of it.")
