{
 "claims": [
  {
   "property": "C01",
   "status": "proved",
   "theorems": [
    "Verif.Props.blob_roundtrip"
   ],
   "note": ""
  },
  {
   "property": "C02",
   "status": "proved",
   "theorems": [
    "Verif.Props.blob_canonical"
   ],
   "note": ""
  },
  {
   "property": "C03",
   "status": "proved",
   "theorems": [
    "Verif.Props.blob_short",
    "Verif.Props.blob_short_err",
    "Verif.Props.blob_negative"
   ],
   "note": ""
  },
  {
   "property": "C04",
   "status": "proved",
   "theorems": [
    "Verif.Props.tree_roundtrip"
   ],
   "note": ""
  },
  {
   "property": "C05",
   "status": "proved",
   "theorems": [
    "Verif.Props.tree_bytes",
    "Verif.Props.tree_decoded"
   ],
   "note": ""
  },
  {
   "property": "C06",
   "status": "proved",
   "theorems": [
    "Verif.Props.tree_duplicate"
   ],
   "note": ""
  },
  {
   "property": "C07",
   "status": "partial",
   "theorems": [
    "Verif.Props.tree_truncated_partial",
    "Verif.Props.tree_truncated_header",
    "Verif.Props.tree_truncation_accepted"
   ],
   "note": "False of the code as stated: a tree cut inside an entry before its hash decodes as the shorter tree (tree_truncation_accepted). Cuts inside a hash or inside the header are rejected."
  },
  {
   "property": "C08",
   "status": "proved",
   "theorems": [
    "Verif.Props.tree_lookup_iteration"
   ],
   "note": ""
  },
  {
   "property": "C09",
   "status": "proved",
   "theorems": [
    "Verif.Props.tag_roundtrip"
   ],
   "note": ""
  },
  {
   "property": "C10",
   "status": "partial",
   "theorems": [
    "Verif.Props.tag_bytes_partial",
    "Verif.Props.tag_unknown_header_lost",
    "Verif.Props.tag_without_tagger_changed",
    "Verif.Props.tag_empty_message_changed",
    "Verif.Props.tag_bytes_exact"
   ],
   "note": "False of the code as stated: tags without tagger, with an empty message or with unknown headers change. tag_bytes_exact says exactly which well-formed tags are reproduced."
  },
  {
   "property": "C100",
   "status": "proved",
   "theorems": [
    "Verif.Props.multi_kept",
    "Verif.Props.multi_exact"
   ],
   "note": "unknownFields (Spec/Multi) is git's reading of the bytes: lines before the first empty line, grouped by leading space. The commit starts with a known header, its signatures are indented as git writes them, and it has an author and a committer (else Encode panics, C30)."
  },
  {
   "property": "C101",
   "status": "proved",
   "theorems": [
    "Verif.Props.shuffled_commit",
    "Verif.Props.shuffled_tag",
    "Verif.Props.shuffled_tree",
    "Verif.Props.sorted_tree",
    "Verif.Props.bytesLt_order",
    "Verif.Props.lengthLt_order",
    "Verif.Props.git_order_bytes",
    "Verif.Props.dagjson_tree"
   ],
   "note": "Of the codecs it is assumed that the data is kept up to the order of map entries (Shuffled, Spec/Sorted). The order of git (GitSorted) is that of base_name_compare in git's read-cache.c, with directories being the entries of mode 40000."
  },
  {
   "property": "C102",
   "status": "proved",
   "theorems": [
    "Verif.Props.git_refs",
    "Verif.Props.git_refs_exact",
    "Verif.Props.git_refuses",
    "Verif.Props.git_message",
    "Verif.Props.git_tag",
    "Verif.Props.git_tree"
   ],
   "note": "Git's reading (Spec/GitRead) is that of parse_commit_buffer and find_commit_subject in git's commit.c, parse_tag_buffer in tag.c and decode_tree_entry in tree-walk.c, for objects named by SHA-1 and without NUL in the headers. Header lines are those of the grammar of C52."
  },
  {
   "property": "C103",
   "status": "proved",
   "theorems": [
    "Verif.Props.fsck_person",
    "Verif.Props.fsck_commit_exact",
    "Verif.Props.fsck_commit",
    "Verif.Props.fsck_tag"
   ],
   "note": "What fsck accepts (Spec/Fsck) is that of fsck_ident, fsck_commit, fsck_tag_standalone and verify_headers in git's fsck.c, without what it only informs about; tags have no headers behind the tagger."
  },
  {
   "property": "C104",
   "status": "proved",
   "theorems": [
    "Verif.Props.transform_value",
    "Verif.Props.transform_tree",
    "Verif.Props.transform_tree_lookup",
    "Verif.Props.transform_commit",
    "Verif.Props.transform_top",
    "Verif.Props.transform_same",
    "Verif.Props.transform_tag_message",
    "Verif.Props.transform_tree_row",
    "Verif.Props.transform_tree_new",
    "Verif.Props.transform_tree_missing",
    "Verif.Props.transform_commit_missing",
    "Verif.Props.transform_commit_repr",
    "Verif.Props.transform_commit_repr_panics",
    "Verif.Props.transform_commit_message"
   ],
   "note": "FocusedTransform is that of go-ipld-prime with createParents false (Model/Transform), as it drives the assemblers; paths do not lead through links. Edited (Spec/Transform) is told from the node interface alone; what data denotes is that of Spec/Build (C38)."
  },
  {
   "property": "C105",
   "status": "proved",
   "theorems": [
    "Verif.Props.work_result",
    "Verif.Props.work_lines",
    "Verif.Props.work_linear",
    "Verif.Props.work_tree",
    "Verif.Props.work_blob",
    "Verif.Props.work_signature",
    "Verif.Props.work_merge_message",
    "Verif.Props.goGrow_grows",
    "Verif.Props.work_needs_buffer"
   ],
   "note": "Model/Work counts the steps; library functions are counted with the lengths of what they get and return. What bufio.Reader moves within its buffer and the texts of errors are not counted."
  },
  {
   "property": "C106",
   "status": "proved",
   "theorems": [
    "Verif.Props.written_commit",
    "Verif.Props.written_plain",
    "Verif.Props.written_tag"
   ],
   "note": "Spec/GitWrite is written after ident.c, commit.c and builtin/tag.c of git, from memory. Trees and blobs are C05 and C02."
  },
  {
   "property": "C107",
   "status": "proved",
   "theorems": [
    "Verif.Props.word_64",
    "Verif.Props.word_same",
    "Verif.Props.word_wide",
    "Verif.Props.word_32",
    "Verif.Props.word_written"
   ],
   "note": "Model/Word has the range of int as a parameter; for 64 bits it is the model of the other claims."
  },
  {
   "property": "C108",
   "status": "proved",
   "theorems": [
    "Verif.Props.encode_work_result",
    "Verif.Props.encode_work_linear",
    "Verif.Props.encode_work_least",
    "Verif.Props.encode_work_decoded",
    "Verif.Props.encode_work_long_link",
    "Verif.Props.bufferGrow_grows"
   ],
   "note": "The constant format strings and the copy of the struct of a commit (AssignNode) are not counted."
  },
  {
   "property": "C109",
   "status": "proved",
   "theorems": [
    "Verif.Props.verify_made",
    "Verif.Props.verify_again",
    "Verif.Props.verify_exact",
    "Verif.Props.verify_unique",
    "Verif.Props.verify_any_made",
    "Verif.Props.verify_any"
   ],
   "note": "Spec/Verify is written after parse_signed_commit in git's commit.c, from memory. Signatures of other formats are refused (C98). verify_any_made and verify_any are for all extra headers, the others for commits without further headers that begin with gpgsig. That of a tag is part of its message; tags are C124."
  },
  {
   "property": "C11",
   "status": "proved",
   "theorems": [
    "Verif.Props.commit_roundtrip"
   ],
   "note": ""
  },
  {
   "property": "C110",
   "status": "proved",
   "theorems": [
    "Verif.Props.built_refs",
    "Verif.Props.built_message",
    "Verif.Props.built_persons",
    "Verif.Props.built_fsck",
    "Verif.Props.built_tag",
    "Verif.Props.built_tree",
    "Verif.Props.git_tree_unique"
   ],
   "note": "Spec/Built, Spec/GitRead and Spec/Fsck are written after git's sources, from memory. Which built values Decode reads back is C62."
  },
  {
   "property": "C111",
   "status": "proved",
   "theorems": [
    "Verif.Props.wide_commit",
    "Verif.Props.wide_tag",
    "Verif.Props.wide_tree",
    "Verif.Props.wide_tree_written"
   ],
   "note": "Blobs hold no references. When the condition of wide_tree fails the tree is refused or read as other rows (C50 says which)."
  },
  {
   "property": "C112",
   "status": "proved",
   "theorems": [
    "Verif.Props.size_unshown",
    "Verif.Props.same_blob",
    "Verif.Props.same_tree",
    "Verif.Props.many_inputs",
    "Verif.Props.same_commit",
    "Verif.Props.same_tag"
   ],
   "note": "What git makes is described in Spec/GitWrite (C106). For arbitrary commits and tags C51 and C52 say what is read."
  },
  {
   "property": "C113",
   "status": "proved",
   "theorems": [
    "Verif.Props.sign_built",
    "Verif.Props.sign_pgp_only"
   ],
   "note": "Spec/Verify is written after parse_signed_commit in git's commit.c, from memory. When git finds the message is C110; whether Decode reads the signature back is C98."
  },
  {
   "property": "C114",
   "status": "proved",
   "theorems": [
    "Verif.Props.sign_tag",
    "Verif.Props.tagSigned_unique",
    "Verif.Props.armour_tagSig"
   ],
   "note": "Spec/TagSign is written after parse_signature in git's gpg-interface.c, from memory. That Decode reads the message back whole is part of C51."
  },
  {
   "property": "C115",
   "status": "proved",
   "theorems": [
    "Verif.Props.value_outcome",
    "Verif.Props.view_outcome",
    "Verif.Props.encode_foreign_tag_exact",
    "Verif.Props.tag_map_panics",
    "Verif.Props.tag_map_fails",
    "Verif.Props.commit_map_outcome",
    "Verif.Props.other_outcome"
   ],
   "note": "What a commit builder gives for a node is taken (Spec/Taken, C88). Errors are told apart by their class, as in the model: not exists, wrong kind, invalid key and so on."
  },
  {
   "property": "C116",
   "status": "proved",
   "theorems": [
    "Verif.Props.blob_survives",
    "Verif.Props.blob_else",
    "Verif.Props.blob_as_other",
    "Verif.Props.other_as_itself",
    "Verif.Props.blob_content",
    "Verif.Props.bare_content"
   ],
   "note": "Contents up to 2^63 - 1 bytes."
  },
  {
   "property": "C117",
   "status": "proved",
   "theorems": [
    "Verif.Props.blob_overread",
    "Verif.Props.blob_takes_buffer",
    "Verif.Props.next_decode",
    "Verif.Props.inMemory_delivers",
    "Verif.Props.inMemory_greedy"
   ],
   "note": "Through the model of bufio.Reader (Model/Bufio). If the reader returns its last error together with data, that is EOF and the input does not end in CR."
  },
  {
   "property": "C118",
   "status": "proved",
   "theorems": [
    "Verif.Props.merge_out",
    "Verif.Props.merge_ambiguous",
    "Verif.Props.merge_in",
    "Verif.Props.decoded_merge"
   ],
   "note": "Header lines shorter than the buffer and not ending in CR, as in C106; decoded_merge for all inputs."
  },
  {
   "property": "C119",
   "status": "proved",
   "theorems": [
    "Verif.Props.merged_verify",
    "Verif.Props.merged_signed",
    "Verif.Props.made_merges"
   ],
   "note": "Header lines shorter than the buffer and not ending in CR; commits with signatures that the package does not read are refused (C106)."
  },
  {
   "property": "C12",
   "status": "partial",
   "theorems": [
    "Verif.Props.commit_bytes_partial",
    "Verif.Props.commit_reencode",
    "Verif.Props.commit_git_order_changed",
    "Verif.Props.commit_bytes_exact"
   ],
   "note": "False of the code as stated: headers in another order than the encoder's (git writes the signature after unknown headers such as HG:extra, merge tags before encoding, ...) change. Identity is proved for the encoder's order; commit_bytes_exact proves that no other order is reproduced."
  },
  {
   "property": "C120",
   "status": "proved",
   "theorems": [
    "Verif.Props.readme_commit_panics",
    "Verif.Props.readme_commit_missing",
    "Verif.Props.commit_form_refused",
    "Verif.Props.readme_tag_fails",
    "Verif.Props.tag_form_refused",
    "Verif.Props.readme_tree_fails",
    "Verif.Props.readme_tree_builds",
    "Verif.Props.readme_blob",
    "Verif.Props.never_shown"
   ],
   "note": "The forms are those of /repo/README.md as plain maps (Spec/Readme). That JSON is parsed to these maps, or to these calls, is not modelled."
  },
  {
   "property": "C121",
   "status": "proved",
   "theorems": [
    "Verif.Props.again_garbage",
    "Verif.Props.again_first",
    "Verif.Props.again_second",
    "Verif.Props.again_other",
    "Verif.Props.again_unbuilt",
    "Verif.Props.again_value",
    "Verif.Props.again_named",
    "Verif.Props.again_rival",
    "Verif.Props.again_twice",
    "Verif.Props.again_total"
   ],
   "note": "Builders of commits and tags; builders of trees are C122, those of blobs C91 (blob_protocol). A pointer that is nil is loaded as a value without fields, where the code would dereference nil (again_named). That reading itself does not panic is C21."
  },
  {
   "property": "C122",
   "status": "proved",
   "theorems": [
    "Verif.Props.treeAgain_garbage",
    "Verif.Props.treeAgain_first",
    "Verif.Props.treeAgain_then",
    "Verif.Props.treeAgain_last",
    "Verif.Props.treeAgain_all",
    "Verif.Props.treeAgain_total"
   ],
   "note": "Builders of trees; those of commits and tags are C121, those of blobs C91 (blob_protocol). That a built node is the builder's own tree is by Build's code (6889-6894); the model has one tree per builder."
  },
  {
   "property": "C123",
   "status": "proved",
   "theorems": [
    "Verif.Props.given_exact",
    "Verif.Props.given_lines",
    "Verif.Props.given_commit",
    "Verif.Props.given_tag"
   ],
   "note": "PlainFile, LineFits and FitsBuffer are in Spec/Given; what git makes is Spec/GitWrite (C106), written from memory of git. Files are assumed shorter than 2^63 bytes. given_lines is about the lines before the first empty line."
  },
  {
   "property": "C124",
   "status": "proved",
   "theorems": [
    "Verif.Props.tag_verify_exact",
    "Verif.Props.tag_verify_size",
    "Verif.Props.tag_verify_kept",
    "Verif.Props.tag_verify_made"
   ],
   "note": "Where git finds the signature is Spec/TagSign (C114), written from memory of git. Files shorter than 2^63 bytes. tag_verify_kept is for signatures of a text that is not empty. Commits are C109."
  },
  {
   "property": "C125",
   "status": "proved",
   "theorems": [
    "Verif.Props.entry_call",
    "Verif.Props.entries_exact",
    "Verif.Props.entries_total",
    "Verif.Props.entries_tree",
    "Verif.Props.entries_delivery"
   ],
   "note": "EntryCalls is the loop of the client; where the rest ends is EntryEnd in Spec/EntryStream. entries_delivery carries the others over to the buffered reader on any io.Reader that delivers the text and then its error; buffers from 2 bytes (bufio has at least 16)."
  },
  {
   "property": "C126",
   "status": "proved",
   "theorems": [
    "Verif.Props.word_tag",
    "Verif.Props.word_commit",
    "Verif.Props.word_tree",
    "Verif.Props.word_tag_commit",
    "Verif.Props.word_commit_tag",
    "Verif.Props.word_signed_tag"
   ],
   "note": "Over the grammar of Spec/Accept (C50, C51, C52). Files that end with EOF. word_tag says that no buffer of at least 8 bytes reads what Encode wrote; bufio has at least 16."
  },
  {
   "property": "C127",
   "status": "proved",
   "theorems": [
    "Verif.Props.behind_tag",
    "Verif.Props.behind_commit",
    "Verif.Props.behind_closed",
    "Verif.Props.behind_blob",
    "Verif.Props.behind_tree",
    "Verif.Props.behind_lost"
   ],
   "note": "Streams that end with EOF. A commit or tag without an empty line behind its headers is left out, since the headers then go on (C51 and C52 say how), as is a tree that is itself cut off inside an entry. C87 says where the decoders stop reading, this one what they make of it."
  },
  {
   "property": "C13",
   "status": "proved",
   "theorems": [
    "Verif.Props.commit_message_verbatim",
    "Verif.Props.tag_message_verbatim",
    "Verif.Props.commit_message_any",
    "Verif.Props.tag_message_any"
   ],
   "note": "The first two for header blocks of the usual form, the message also empty; the last two for every accepted stream with a message that is not empty."
  },
  {
   "property": "C14",
   "status": "proved",
   "theorems": [
    "Verif.Props.commit_parents",
    "Verif.Props.commit_parents_encoded"
   ],
   "note": ""
  },
  {
   "property": "C15",
   "status": "proved",
   "theorems": [
    "Verif.Props.encode_size",
    "Verif.Props.encode_size_blob",
    "Verif.Props.encode_size_written"
   ],
   "note": "encode_size_written is for every node and every writer that keeps the io.Writer contract."
  },
  {
   "property": "C16",
   "status": "proved",
   "theorems": [
    "Verif.Props.decoded_links",
    "Verif.Props.decoded_link_missing"
   ],
   "note": ""
  },
  {
   "property": "C17",
   "status": "proved",
   "theorems": [
    "Verif.Props.commit_bad_reference",
    "Verif.Props.tag_bad_reference",
    "Verif.Props.ref_iff"
   ],
   "note": ""
  },
  {
   "property": "C18",
   "status": "proved",
   "theorems": [
    "Verif.Props.sha_to_link",
    "Verif.Props.sha_to_link_injective",
    "Verif.Props.sha_to_link_rejects"
   ],
   "note": ""
  },
  {
   "property": "C19",
   "status": "proved",
   "theorems": [
    "Verif.Props.gitString_personText",
    "Verif.Props.person_roundtrip",
    "Verif.Props.person_injective",
    "Verif.Props.person_parsed_stable"
   ],
   "note": ""
  },
  {
   "property": "C20",
   "status": "proved",
   "theorems": [
    "Verif.Props.person_git_line",
    "Verif.Props.person_line_preserved",
    "Verif.Props.person_line_changed"
   ],
   "note": "Lines git does not write, such as doubled spaces, can change (person_line_changed); person_line_preserved says exactly which are kept."
  },
  {
   "property": "C21",
   "status": "proved",
   "theorems": [
    "Verif.Props.parse_no_panic",
    "Verif.Props.decode_no_panic",
    "Verif.Props.person_no_panic",
    "Verif.Props.block_no_panic"
   ],
   "note": ""
  },
  {
   "property": "C22",
   "status": "proved",
   "theorems": [
    "Verif.Props.decode_terminates",
    "Verif.Props.loops_bounded",
    "Verif.Props.reads_linear",
    "Verif.Props.reads_linear_decode"
   ],
   "note": "reads_linear: at most one ReadString/ReadLine/ReadFull call per byte of input, and one more."
  },
  {
   "property": "C23",
   "status": "partial",
   "theorems": [
    "Verif.Props.delivery_any",
    "Verif.Props.delivery_prompt",
    "Verif.Props.delivery_matters",
    "Verif.Props.singles_delivers",
    "Verif.Props.singles_prompt",
    "Verif.Props.delivery_eof",
    "Verif.Props.delivery_eof_decode",
    "Verif.Props.delivery_two",
    "Verif.Props.delivery_error",
    "Verif.Props.endsFull_short",
    "Verif.Props.endsFull_cr",
    "Verif.Props.delivery_parse",
    "Verif.Props.delivery_decode",
    "Verif.Props.delivery_irrelevant",
    "Verif.Props.chunks_irrelevant_partial",
    "Verif.Props.script_delivers",
    "Verif.Props.eager_cr_differs",
    "Verif.Props.eager_error_differs"
   ],
   "note": "False of the code in two corners: a last line of exactly one buffer ending in CR delivered with EOF (eager_cr_differs), and a non-EOF error delivered with the last bytes of a blob (eager_error_differs). delivery_any says for every io.Reader that these are the only ones: otherwise the result is that of the stream of bytes, and in the corners it is one of two. delivery_matters says exactly for which streams up to EOF the reader does not matter. delivery_eof: up to EOF, the reader does not matter at all if no line is as long as the buffer, or the stream does not end in CR."
  },
  {
   "property": "C24",
   "status": "proved",
   "theorems": [
    "Verif.Props.read_failure",
    "Verif.Props.read_failure_any"
   ],
   "note": "read_failure for the abstract stream, read_failure_any for every io.Reader that never reports EOF, also with errors that come together with data. Readers that fail once and then report EOF are C57."
  },
  {
   "property": "C25",
   "status": "proved",
   "theorems": [
    "Verif.Props.decode_parse",
    "Verif.Props.decode_builder",
    "Verif.Props.compressed_parse"
   ],
   "note": ""
  },
  {
   "property": "C26",
   "status": "proved",
   "theorems": [
    "Verif.Props.block_exact",
    "Verif.Props.block_cidv1",
    "Verif.Props.block_hash_unchecked"
   ],
   "note": "The hash itself is not compared with the data (block_hash_unchecked)."
  },
  {
   "property": "C27",
   "status": "proved",
   "theorems": [
    "Verif.Props.type_word",
    "Verif.Props.type_word_unknown",
    "Verif.Props.type_word_missing"
   ],
   "note": ""
  },
  {
   "property": "C28",
   "status": "proved",
   "theorems": [
    "Verif.Props.object_roundtrip",
    "Verif.Props.encode_injective",
    "Verif.Props.encode_type",
    "Verif.Props.encode_ambiguous"
   ],
   "note": "For well-formed objects. A line feed inside a field can forge a header (encode_ambiguous). Blobs are left out of encode_type, as a blob node holds its own header."
  },
  {
   "property": "C29",
   "status": "proved",
   "theorems": [
    "Verif.Props.encode_writer",
    "Verif.Props.encode_writer_panic",
    "Verif.Props.encode_room",
    "Verif.Props.dishonest_writer_undetected"
   ],
   "note": "For writers that keep the io.Writer contract; a writer that reports a full write after a short one is not noticed (dishonest_writer_undetected)."
  },
  {
   "property": "C30",
   "status": "partial",
   "theorems": [
    "Verif.Props.reencode_partial",
    "Verif.Props.reencode_panics"
   ],
   "note": "False of the code: a decoded commit without author or committer makes Encode panic. Proved: exactly those decoded objects panic."
  },
  {
   "property": "C31",
   "status": "partial",
   "theorems": [
    "Verif.Props.encode_typed",
    "Verif.Props.encode_representation_partial",
    "Verif.Props.encode_representation_commit",
    "Verif.Props.encode_representation_iff",
    "Verif.Props.encode_representation_differs"
   ],
   "note": "Proved for blobs, trees and tags. False of the code for commits: Encode of the representation view of any commit panics (encode_representation_commit)."
  },
  {
   "property": "C32",
   "status": "proved",
   "theorems": [
    "Verif.Props.commit_signature",
    "Verif.Props.commit_signature_rejected",
    "Verif.Props.commit_signature_opening_lost"
   ],
   "note": "Holds for PGP signatures. Other signature kinds are rejected, and text after 'gpgsig ' on the first line is not kept (commit_signature_opening_lost)."
  },
  {
   "property": "C33",
   "status": "proved",
   "theorems": [
    "Verif.Props.commit_other_headers"
   ],
   "note": ""
  },
  {
   "property": "C34",
   "status": "partial",
   "theorems": [
    "Verif.Props.commit_merge_tags",
    "Verif.Props.commit_mergetag_swallows"
   ],
   "note": "Proved for merge tags with the separator line; a merge tag without it swallows the following headers (commit_mergetag_swallows)."
  },
  {
   "property": "C35",
   "status": "partial",
   "theorems": [
    "Verif.Props.buffer_size_irrelevant_partial",
    "Verif.Props.buffer_size_message",
    "Verif.Props.long_line_splits",
    "Verif.Props.long_line_forges_parent",
    "Verif.Props.fold_commit",
    "Verif.Props.fold_tag",
    "Verif.Props.fold_commit_short_message",
    "Verif.Props.fold_exists",
    "Verif.Props.fold_unique",
    "Verif.Props.fold_short",
    "Verif.Props.crlf_line_ends_header"
   ],
   "note": "False of the code: a header line as long as the buffer is split, and its tail is taken for another header (long_line_forges_parent). Proved: lines shorter than the buffer, and messages, do not depend on the buffer size. fold_commit and fold_tag say what becomes of every other input: the result is that of the same text with long lines folded, read with a larger buffer, but for the message, which is not folded."
  },
  {
   "property": "C36",
   "status": "partial",
   "theorems": [
    "Verif.Props.commit_truncation_accepted",
    "Verif.Props.commit_truncation_headers_accepted",
    "Verif.Props.tag_truncation_accepted",
    "Verif.Props.commit_unterminated_signature",
    "Verif.Props.commit_truncated_mergetag",
    "Verif.Props.commit_truncation_exact",
    "Verif.Props.tag_truncation_exact"
   ],
   "note": "False of the code as stated: truncation between headers or inside the message is accepted. The last two theorems say exactly which truncations of well-formed objects are accepted, and as what."
  },
  {
   "property": "C37",
   "status": "partial",
   "theorems": [
    "Verif.Props.encode_dispatch",
    "Verif.Props.encode_foreign",
    "Verif.Props.encode_foreign_tag",
    "Verif.Props.encode_foreign_tag_exact",
    "Verif.Props.encode_foreign_tag_message_first",
    "Verif.Props.encode_panic_cause",
    "Verif.Props.encode_list_panics",
    "Verif.Props.encode_foreign_commit_panics"
   ],
   "note": "The dispatch and what success means are proved. 'Never a panic' is false of the code; encode_panic_cause lists every way to panic."
  },
  {
   "property": "C38",
   "status": "proved",
   "theorems": [
    "Verif.Props.build_person",
    "Verif.Props.build_treeEntry",
    "Verif.Props.build_tag",
    "Verif.Props.build_commit_sound",
    "Verif.Props.build_commit_iff",
    "Verif.Props.build_commit_own",
    "Verif.Props.build_repr",
    "Verif.Props.build_repr_commit",
    "Verif.Props.build_repr_commit_panics",
    "Verif.Props.tree_assign_map_panics",
    "Verif.Props.tree_assign_empty"
   ],
   "note": "Exact for persons, tree entries and tags. For commits: success implies the schema (build_commit_sound) and build_commit_iff says exactly which nodes are accepted, but the converse of the schema fails, as a map for author or committer panics (build_repr_commit_panics)."
  },
  {
   "property": "C39",
   "status": "partial",
   "theorems": [
    "Verif.Props.tree_names_distinct_partial",
    "Verif.Props.tree_names_not_distinct",
    "Verif.Props.tree_names_distinct_iff",
    "Verif.Props.tree_refuses"
   ],
   "note": "False of the code: the key assembler does not check for repeats (tree_names_not_distinct). Proved: callers that only use AssembleEntry get distinct names, and tree_names_distinct_iff says exactly when names repeat."
  },
  {
   "property": "C40",
   "status": "proved",
   "theorems": [
    "Verif.Props.tree_build",
    "Verif.Props.tree_lookup_last_row",
    "Verif.Props.tree_lookup_finished",
    "Verif.Props.tree_add_refines"
   ],
   "note": "For every growth policy of append and every sequence of calls. Callers that keep a child assembler of the value assembler and use it after the value is finished are C78, C79 and C80."
  },
  {
   "property": "C41",
   "status": "proved",
   "theorems": [
    "Verif.Props.iteration_matches_lookup",
    "Verif.Props.iteration_matches_lookup_repr",
    "Verif.Props.iter_entries",
    "Verif.Props.iter_typed",
    "Verif.Props.iter_repr",
    "Verif.Props.iter_nodup",
    "Verif.Props.iter_length",
    "Verif.Props.iter_reprLength"
   ],
   "note": ""
  },
  {
   "property": "C42",
   "status": "proved",
   "theorems": [
    "Verif.Props.size_header",
    "Verif.Props.size_header_rejects",
    "Verif.Props.size_header_objects"
   ],
   "note": ""
  },
  {
   "property": "C43",
   "status": "proved",
   "theorems": [
    "Verif.Props.decoded_from_stream"
   ],
   "note": ""
  },
  {
   "property": "C44",
   "status": "partial",
   "theorems": [
    "Verif.Props.decode_into",
    "Verif.Props.decode_into_partial",
    "Verif.Props.decode_into_tree_panics"
   ],
   "note": "False of the code: a tree builder panics when the stream holds a commit or a tag (decode_into_tree_panics). decode_into says what happens for every prototype and stream."
  },
  {
   "property": "C45",
   "status": "partial",
   "theorems": [
    "Verif.Props.settle_partial",
    "Verif.Props.settle_exceptions",
    "Verif.Props.decoded_commit_ok",
    "Verif.Props.decoded_tag_ok"
   ],
   "note": "False of the code in the cases of settle_exceptions: values ending in CR, a timezone without a date, an email word beginning with '<', missing references, a continuation line moved behind a merge tag. Proved for all other decoded objects (lines shorter than the buffer); C73 says that these exceptions are exactly all, and what holds of longer lines (settle_fits)."
  },
  {
   "property": "C46",
   "status": "proved",
   "theorems": [
    "Verif.Props.builder_sound",
    "Verif.Props.builder_complete",
    "Verif.Props.makes_unique",
    "Verif.Props.built_complete"
   ],
   "note": "That the model, which keeps values under construction apart, is right about the assemblers in memory is C74; handles of children that are already left behind are the subject of C47 and C75. Trees have their own model (C39, C40, C77)."
  },
  {
   "property": "C47",
   "status": "partial",
   "theorems": [
    "Verif.Props.built_refuses",
    "Verif.Props.built_stays",
    "Verif.Props.stale_repr_overwrites",
    "Verif.Props.stale_repr_refused",
    "Verif.Props.stale_typed_harmless",
    "Verif.Props.second_assign"
   ],
   "note": "Proved for the builder and the handles still open. False of the code for a kept handle of a required field of a representation builder (stale_repr_overwrites; stale_repr_refused and stale_typed_harmless cover all other kept handles of fields), and for AssignNode of a map after AssignNode of a typed node (second_assign). One call on a kept handle is covered here; C76 covers every series of calls on every handle, C83 and C84 with AssignNode of any node among them, and they say for which types and views the value stays."
  },
  {
   "property": "C48",
   "status": "partial",
   "theorems": [
    "Verif.Props.path_lookup",
    "Verif.Props.path_lookup_decoded",
    "Verif.Props.path_panics",
    "Verif.Props.path_no_panic_partial",
    "Verif.Props.path_negative_panics",
    "Verif.Props.list_iteration",
    "Verif.Props.list_iteration_elems",
    "Verif.Props.list_index_range",
    "Verif.Props.list_overread"
   ],
   "note": "False of the code for negative numbers: LookupByIndex has no lower bound check, so a path such as parents, -1 panics on every commit (path_negative_panics). path_panics says exactly when a path panics; the rest is proved."
  },
  {
   "property": "C49",
   "status": "partial",
   "theorems": [
    "Verif.Props.struct_lookup_node",
    "Verif.Props.list_lookup_node",
    "Verif.Props.tree_lookup_node_partial",
    "Verif.Props.tree_lookup_node_panics"
   ],
   "note": "False of the code for trees: LookupByNode panics for every key that is not of the package's String type (tree_lookup_node_panics). Proved for structs, lists and String keys."
  },
  {
   "property": "C50",
   "status": "proved",
   "theorems": [
    "Verif.Props.blob_accepts",
    "Verif.Props.tree_accepts",
    "Verif.Props.treeTail_iff"
   ],
   "note": "Equivalences: every stream, accepted or not. The tree's map is given by its rows."
  },
  {
   "property": "C51",
   "status": "proved",
   "theorems": [
    "Verif.Props.tag_accepts",
    "Verif.Props.head_unique"
   ],
   "note": "Equivalence over the grammar in Spec/Accept. Buffers of at least 2 bytes; bufio uses at least 16."
  },
  {
   "property": "C52",
   "status": "proved",
   "theorems": [
    "Verif.Props.commit_accepts",
    "Verif.Props.blocks_unique"
   ],
   "note": "Equivalence over the grammar in Spec/Accept. Buffers of at least 2 bytes; bufio uses at least 16."
  },
  {
   "property": "C53",
   "status": "proved",
   "theorems": [
    "Verif.Props.person_accepts",
    "Verif.Props.person_rejects"
   ],
   "note": "Equivalence for every line."
  },
  {
   "property": "C54",
   "status": "proved",
   "theorems": [
    "Verif.Props.tag_header_order",
    "Verif.Props.commit_header_order"
   ],
   "note": "Pairs of streams compared through their headers; header blocks are unique by blocks_unique and head_unique."
  },
  {
   "property": "C55",
   "status": "proved",
   "theorems": [
    "Verif.Props.slices_valid",
    "Verif.Props.slices_valid_decode",
    "Verif.Props.memBuf_lawful",
    "Verif.Props.slices_buffer",
    "Verif.Props.slices_stream",
    "Verif.Props.slices_no_leak",
    "Verif.Props.stale_slice"
   ],
   "note": "The decoders are modelled a second time with slices in place of lines (Model/Alias). stale_slice shows that a kept slice does change."
  },
  {
   "property": "C56",
   "status": "partial",
   "theorems": [
    "Verif.Props.list_nodes_unchanging_partial",
    "Verif.Props.tree_nodes_unchanging_partial",
    "Verif.Props.people_nodes_unchanging_partial",
    "Verif.Props.list_node_changes",
    "Verif.Props.list_not_unchanging",
    "Verif.Props.list_node_grows",
    "Verif.Props.tree_source_changes",
    "Verif.Props.tree_not_unchanging",
    "Verif.Props.commit_author_changes",
    "Verif.Props.people_not_unchanging"
   ],
   "note": "False of the code: AssignNode of a node of another type does not look at the mark, so a builder that was given a node can be used again and writes into what it shares with that node. Proved for callers that never call an assembler that holds a value. tree_source_changes and commit_author_changes hold for every tree and commit."
  },
  {
   "property": "C57",
   "status": "partial",
   "theorems": [
    "Verif.Props.first_error_partial",
    "Verif.Props.fleeting_error_lost",
    "Verif.Props.fleeting_error_lost_tag",
    "Verif.Props.flaky_failsFirst"
   ],
   "note": "False of the code for commits and tags: ReadLine returns the part of a line read before the error and drops the error; if the next Read reports EOF the cut object is accepted (fleeting_error_lost). Proved for trees and blobs. What happens to commits and tags instead is C72."
  },
  {
   "property": "C58",
   "status": "partial",
   "theorems": [
    "Verif.Props.typed_fields",
    "Verif.Props.typed_optional",
    "Verif.Props.typed_optional_fields",
    "Verif.Props.typed_list_lookup",
    "Verif.Props.typed_list_range",
    "Verif.Props.typed_list_maybe_panics",
    "Verif.Props.typed_tree_lookup",
    "Verif.Props.typed_list_iteration",
    "Verif.Props.typed_list_nil_loop",
    "Verif.Props.typed_tree_iteration"
   ],
   "note": "False of the code for LookupMaybe of the three list types: past the end it returns a nil MaybeX, and every method of it panics (typed_list_maybe_panics). Negative indices and nil keys panic. Everything else is proved."
  },
  {
   "property": "C59",
   "status": "proved",
   "theorems": [
    "Verif.Props.stdout_exact",
    "Verif.Props.stdout_accepted",
    "Verif.Props.stdout_delivery"
   ],
   "note": "The lines are printed unescaped. That blobs, trees and commits print nothing rests on their code having no print statement."
  },
  {
   "property": "C60",
   "status": "proved",
   "theorems": [
    "Verif.Props.commit_truncation_exact",
    "Verif.Props.commit_cut_item",
    "Verif.Props.tag_truncation_exact",
    "Verif.Props.commit_cut_reference",
    "Verif.Props.commit_cut_encoding"
   ],
   "note": "CommitCut and TagCut list what each kind of cut header means; it covers every prefix of every well-formed commit and tag."
  },
  {
   "property": "C61",
   "status": "proved",
   "theorems": [
    "Verif.Props.commit_bytes_exact",
    "Verif.Props.tag_bytes_exact",
    "Verif.Props.commit_reading_unique"
   ],
   "note": "Well-formed is Item.Ok and TagItem.Ok of Spec/Objects, which allow any order and number of headers."
  },
  {
   "property": "C62",
   "status": "proved",
   "theorems": [
    "Verif.Props.tree_survives",
    "Verif.Props.tag_survives_exact",
    "Verif.Props.commit_survives_exact",
    "Verif.Props.tag_survives",
    "Verif.Props.commit_survives"
   ],
   "note": "TagFits and CommitFits in Spec/Fits spell the condition out for lines of any length; tag_survives and commit_survives are the case of lines shorter than the buffer. Encoded objects are assumed shorter than 2^63 bytes. Blobs always survive (C01)."
  },
  {
   "property": "C63",
   "status": "proved",
   "theorems": [
    "Verif.Props.refused_by_kind",
    "Verif.Props.scalars_answer",
    "Verif.Props.shape_by_kind",
    "Verif.Props.lookups_refused",
    "Verif.Props.answers_agree",
    "Verif.Props.prototypes_from"
   ],
   "note": "The set of appropriate kinds in ErrWrongKind is go-ipld-prime's and not modelled."
  },
  {
   "property": "C64",
   "status": "proved",
   "theorems": [
    "Verif.Props.node_conforms",
    "Verif.Props.conforming_is_node",
    "Verif.Props.views_agree",
    "Verif.Props.decoded_conforms",
    "Verif.Props.link_targets",
    "Verif.Props.repeated_name_not_conforming"
   ],
   "note": "A tree conforms exactly if the names of its rows are distinct; C39 shows how a caller can build one where they are not."
  },
  {
   "property": "C65",
   "status": "proved",
   "theorems": [
    "Verif.Props.graph_path",
    "Verif.Props.graph_path_exact",
    "Verif.Props.graph_panics"
   ],
   "note": "Load and path traversal are go-ipld-prime's and modelled as far as they use the package. Well-formed is GitObj.Ok: any header order, a tree in every commit and an object in every tag."
  },
  {
   "property": "C66",
   "status": "proved",
   "theorems": [
    "Verif.Props.store_loaded",
    "Verif.Props.store_grows",
    "Verif.Props.store_block",
    "Verif.Props.store_block_exact",
    "Verif.Props.store_then_load_any",
    "Verif.Props.store_then_load"
   ],
   "note": "Store is go-ipld-prime's and modelled as encode, hash, keep. That another text gives another link needs the hash function to separate the two texts; this is a hypothesis of that part. store_then_load is the case of header lines shorter than the buffer of store_then_load_any."
  },
  {
   "property": "C67",
   "status": "proved",
   "theorems": [
    "Verif.Props.asm_refused",
    "Verif.Props.asm_node_refused",
    "Verif.Props.key_asm_refused",
    "Verif.Props.refused_in_every_state",
    "Verif.Props.other_kinds_refused"
   ],
   "note": "That a refusal changes nothing in any state is proved over the call by call model of all types but Blob and Tree, whose refusing methods have no receiver state to change. The set of appropriate kinds in ErrWrongKind is not modelled."
  },
  {
   "property": "C68",
   "status": "proved",
   "theorems": [
    "Verif.Props.prototypes",
    "Verif.Props.child_prototypes",
    "Verif.Props.values_have_value_prototype",
    "Verif.Props.copy_typed",
    "Verif.Props.copy_type",
    "Verif.Props.copy_repr"
   ],
   "note": "The exceptions are part of the claim: AssignNode of commit and tree builders panics on such representations, see C38 and C39."
  },
  {
   "property": "C69",
   "status": "proved",
   "theorems": [
    "Verif.Props.calls_match_assign",
    "Verif.Props.calls_match_assign_commit",
    "Verif.Props.calls_never_panic",
    "Verif.Props.calls_build_commit",
    "Verif.Props.calls_build_tag",
    "Verif.Props.calls_build_person",
    "Verif.Props.calls_build_treeEntry",
    "Verif.Props.assign_commit_panics"
   ],
   "note": "Connects the two models of the assemblers, of AssignNode (Model/Assemble) and of single calls (Model/Calls). The decoder of the other codec is not modelled beyond the calls it makes; it stops at the first error."
  },
  {
   "property": "C70",
   "status": "proved",
   "theorems": [
    "Verif.Props.rebuild",
    "Verif.Props.reads_feeds",
    "Verif.Props.conforming_builds",
    "Verif.Props.valOf_inj"
   ],
   "note": "Without Blob, which is a single AssignBytes, and Tree, whose assembler is modelled apart (Model/TreeHeap)."
  },
  {
   "property": "C71",
   "status": "proved",
   "theorems": [
    "Verif.Props.calls_build_tree",
    "Verif.Props.calls_tree_lookup",
    "Verif.Props.calls_tree_error",
    "Verif.Props.calls_tree_never_panic",
    "Verif.Props.calls_tree_distinct",
    "Verif.Props.rebuild_tree"
   ],
   "note": "Joins the tree assembler with its memory (Model/TreeHeap) to the tree entry assembler (Model/Calls)."
  },
  {
   "property": "C72",
   "status": "proved",
   "theorems": [
    "Verif.Props.lapse_commit_any",
    "Verif.Props.lapse_tag_any",
    "Verif.Props.lapse_covers",
    "Verif.Props.lapse_brink",
    "Verif.Props.lapse_commit",
    "Verif.Props.lapse_tag",
    "Verif.Props.lapse_between_lines",
    "Verif.Props.lapse_in_header",
    "Verif.Props.flaky_failsOnce"
   ],
   "note": "Says exactly what becomes of C57 for commits and tags. lapse_covers says which torn lines are covered, lapse_brink shows that if the last part fills the buffer the outcome is not fixed by the text. flaky_failsOnce shows that lists of chunks with one error are such readers."
  },
  {
   "property": "C73",
   "status": "proved",
   "theorems": [
    "Verif.Props.settle_exact",
    "Verif.Props.settle_fits",
    "Verif.Props.settle_partial"
   ],
   "note": "Settled in Props/Settle spells the condition out for objects whose header lines are shorter than the buffer, ObjFits in Spec/Fits for all. The objects that Encode refuses or panics on are those of C30."
  },
  {
   "property": "C74",
   "status": "proved",
   "theorems": [
    "Verif.Props.current_handles"
   ],
   "note": "Justifies the simplification of Model/Calls: Model/Handles has the tree of assemblers with their pointers and marks, and the memory."
  },
  {
   "property": "C75",
   "status": "proved",
   "theorems": [
    "Verif.Props.kept_handles"
   ],
   "note": "The exceptions are part of the claim. HandlesSafe compares with the calls by depth; the counterexamples are the call sequences kept* in Props/Handles."
  },
  {
   "property": "C76",
   "status": "proved",
   "theorems": [
    "Verif.Props.built_lasts"
   ],
   "note": "The exceptions are part of the claim. BuiltLasts (Spec/Handles) quantifies over all later calls of Model/Handles, which has AssignNode only with nodes of the assembler's own type (C83 and C84 have any node); the counterexamples are evaluated by the kernel."
  },
  {
   "property": "C77",
   "status": "proved",
   "theorems": [
    "Verif.Props.tree_sound",
    "Verif.Props.tree_complete",
    "Verif.Props.tree_unique"
   ],
   "note": "The counterpart of C46 for trees. Handles kept past the entry they are for are C79 and C80."
  },
  {
   "property": "C78",
   "status": "proved",
   "theorems": [
    "Verif.Props.tree_current_handles"
   ],
   "note": "Justifies the simplifications of Model/TreeCalls and of Model/TreeHeap's value assembler: Model/TreeHandles has table, map and assemblers in memory."
  },
  {
   "property": "C79",
   "status": "proved",
   "theorems": [
    "Verif.Props.tree_lasts",
    "Verif.Props.tree_changes"
   ],
   "note": "The exception is part of the claim. TreeLasts (Spec/TreeHandles) quantifies over all later calls of Model/TreeHandles."
  },
  {
   "property": "C80",
   "status": "proved",
   "theorems": [
    "Verif.Props.tree_unsafe",
    "Verif.Props.tree_kept_name",
    "Verif.Props.tree_kept_split"
   ],
   "note": "A claim that misuse does harm: TreeHandlesSafe is the counterpart of the claim that C75 proves of other types; the call sequences are evaluated by the kernel."
  },
  {
   "property": "C81",
   "status": "proved",
   "theorems": [
    "Verif.Props.reset_as_new",
    "Verif.Props.reset_tree_as_new",
    "Verif.Props.acts_unreset",
    "Verif.Props.actsTree_unreset"
   ],
   "note": "Calls are those of Model/Foreign and Model/TreeForeign, with AssignNode of any node; acts_unreset and actsTree_unreset say that without resets the histories are those of C83 and C85. After Reset, handles of before are in the model as they are in the code: to assemblers without mark."
  },
  {
   "property": "C82",
   "status": "proved",
   "theorems": [
    "Verif.Props.reset_lets_go",
    "Verif.Props.reset_tree_lets_go"
   ],
   "note": "shown (Spec/Reset) reads the value through the pointer that Build returned, shownTree (Spec/TreeReset) the tree through its map and table. Calls as for C81."
  },
  {
   "property": "C83",
   "status": "proved",
   "theorems": [
    "Verif.Props.settled_steps"
   ],
   "note": "Settled (Spec/Foreign) quantifies over all later calls of Model/Foreign: those of Model/Handles and AssignNode with any node. The exceptions in the representation are part of the claim; the counterexamples are evaluated by the kernel."
  },
  {
   "property": "C84",
   "status": "proved",
   "theorems": [
    "Verif.Props.settled_whole"
   ],
   "note": "A claim that misuse does harm, and that it does none to scalars. The generated code sets the state of a map or list assembler only in Finish, not when a node is given whole, and its loop over another node does not look at the mark."
  },
  {
   "property": "C85",
   "status": "proved",
   "theorems": [
    "Verif.Props.tree_settled"
   ],
   "note": "TreeSettled (Spec/TreeForeign) quantifies over all later calls of Model/TreeForeign, on the tree assembler, the entry assembler and its fields. A tree given to AssignNode is one that shares no memory with the builder."
  },
  {
   "property": "C86",
   "status": "proved",
   "theorems": [
    "Verif.Props.given_tree_shared",
    "Verif.Props.given_tree_changes"
   ],
   "note": "A claim that misuse does harm. shownTree (Spec/TreeForeign) is what the holder of the given tree sees: its own table, and the map, which in Go is one object for both, as it is then. The entries of the second node are nodes of the package; an example has one that is a plain map."
  },
  {
   "property": "C87",
   "status": "proved",
   "theorems": [
    "Verif.Props.rest_parse",
    "Verif.Props.rest_iff",
    "Verif.Props.blobs_in_a_row",
    "Verif.Props.blobs_in_a_row_any"
   ],
   "note": "rest_parse says for every reader that Model/Rest is Model/Decode with the reader that is left."
  },
  {
   "property": "C88",
   "status": "proved",
   "theorems": [
    "Verif.Props.assign_any",
    "Verif.Props.assign_panics_only",
    "Verif.Props.memory_matches_values",
    "Verif.Props.memory_matches_any_showing",
    "Verif.Props.assign_any_tree",
    "Verif.Props.assign_tree",
    "Verif.Props.tree_memory_matches"
   ],
   "note": "taken (Spec/Taken) says what a node gives, without assemblers. The memory_matches theorems say that the model with memory (Foreign) and the model with values (Assemble, Builders) agree on every node: same value, same error, or a panic in both. Filled: nodes of the package's types have their required fields, which the Go types force and shows_whole proves."
  },
  {
   "property": "C89",
   "status": "proved",
   "theorems": [
    "Verif.Props.errors_truthful",
    "Verif.Props.errors_have_details",
    "Verif.Props.finish_names_missing",
    "Verif.Props.wrong_unique",
    "Verif.Props.tree_errors_truthful"
   ],
   "note": "Wrong and WrongTree (Spec/Details) say what is wrong with a call, told from the calls that succeeded before (keysAt, typeAt) and the schema, without assembler states. The oddity of AssignNull is part of the claim. Of ErrWrongKind only the type name is covered."
  },
  {
   "property": "C90",
   "status": "proved",
   "theorems": [
    "Verif.Props.blob_memory",
    "Verif.Props.blob_memory_stream",
    "Verif.Props.blob_buffer",
    "Verif.Props.sizes_exact",
    "Verif.Props.sizes_pages"
   ],
   "note": "Sizes (Spec/Reserve) is what is assumed of the runtime: arrays are as large as asked for and at most twice that. The growth of bytes.Buffer is that of the standard library as documented and is part of what is trusted. Memory of the header string and of the bufio.Reader is not counted."
  },
  {
   "property": "C91",
   "status": "proved",
   "theorems": [
    "Verif.Props.blob_changes",
    "Verif.Props.node_keeps",
    "Verif.Props.blob_is_slice",
    "Verif.Props.blob_is_given",
    "Verif.Props.decoded_private",
    "Verif.Props.blob_protocol"
   ],
   "note": "Reaches and NeverAsks (Spec/Blobs) are told from slices and acts. Nodes of other types are covered as far as they return a slice from AsBytes."
  },
  {
   "property": "C92",
   "status": "proved",
   "theorems": [
    "Verif.Props.deep_equal_reads",
    "Verif.Props.deep_equal_comm",
    "Verif.Props.deep_equal_alike",
    "Verif.Props.deep_equal_same",
    "Verif.Props.deep_equal_views",
    "Verif.Props.deep_equal_objects",
    "Verif.Props.deep_equal_encode"
   ],
   "note": "DeepEqual is that of go-ipld-prime as documented and is part of what is trusted. Reads (Spec/Gen) says what is read from a node; Alike and Full (Spec/DeepEqual) are told from the values. Answers: from some depth of recursion on, the result is this one. Trees with repeated names are compared row by row."
  },
  {
   "property": "C93",
   "status": "proved",
   "theorems": [
    "Verif.Props.decode_any",
    "Verif.Props.any_encode",
    "Verif.Props.decode_map",
    "Verif.Props.copy_equal",
    "Verif.Props.tag_copy",
    "Verif.Props.commit_copy",
    "Verif.Props.commit_copy_absent",
    "Verif.Props.tree_copy",
    "Verif.Props.decode_scalar"
   ],
   "note": "The builders of basicnode are those of go-ipld-prime as documented and part of what is trusted; whether its maps copy absent values is a parameter. The entries are those of the typed view, which Decode hands over."
  },
  {
   "property": "C94",
   "status": "proved",
   "theorems": [
    "Verif.Props.stack_sharp",
    "Verif.Props.stack_enough",
    "Verif.Props.stack_overflow",
    "Verif.Props.tower_accepted",
    "Verif.Props.stack_tags"
   ],
   "note": "parseObjectIn d is ParseObject with room for d frames of decodeCommitLine; Err.fuel stands for the stack overflow. tower (Spec/Depth) is the text of the commit of merge tags. How many bytes a frame takes is not part of the claim."
  },
  {
   "property": "C95",
   "status": "proved",
   "theorems": [
    "Verif.Props.reencode_growth",
    "Verif.Props.reencode_double",
    "Verif.Props.growth_sharp",
    "Verif.Props.grown_accepted",
    "Verif.Props.grown_encoded"
   ],
   "note": "The bound is 59 * body <= 84 * input + 7874. encObj is Encode on the decoded node (encode_typed)."
  },
  {
   "property": "C96",
   "status": "proved",
   "theorems": [
    "Verif.Props.compressed_intact",
    "Verif.Props.compressed_checked",
    "Verif.Props.compressed_sound",
    "Verif.Props.compressed_unchecked",
    "Verif.Props.compressed_noticed"
   ],
   "note": "The zlib reader is that of Go's standard library as far as its end is concerned (Model/Zlib); decompression is any reader that Delivers, and zlib.NewReader is assumed to have succeeded. AdlerIs (Spec/Zlib) is the checksum of RFC 1950. compressed_intact and compressed_sound exclude the corner of C23 (EndsFull)."
  },
  {
   "property": "C97",
   "status": "proved",
   "theorems": [
    "Verif.Props.refused_because",
    "Verif.Props.refused_reader",
    "Verif.Props.accepted_or_wrong",
    "Verif.Props.wrong_one",
    "Verif.Props.eof_means",
    "Verif.Props.eof_not_end"
   ],
   "note": "Faulty (Spec/Faults) is told from the bytes with the grammars of C50 to C53. Errors are distinguished by kind, not by text."
  },
  {
   "property": "C98",
   "status": "proved",
   "theorems": [
    "Verif.Props.signed_exact",
    "Verif.Props.signed_refused",
    "Verif.Props.signed_other_format",
    "Verif.Props.signed_unclosed",
    "Verif.Props.signed_payload"
   ],
   "note": "The formats are those of git's gpg-interface.c and RFC 4880, written down in Spec/Signed (Armour). Header lines are shorter than the buffer."
  },
  {
   "property": "C99",
   "status": "proved",
   "theorems": [
    "Verif.Props.select_object",
    "Verif.Props.select_missing_commit",
    "Verif.Props.select_missing_tag",
    "Verif.Props.select_missing_never",
    "Verif.Props.select_shows",
    "Verif.Props.follow_exact"
   ],
   "note": "SelectLinks and Load are those of go-ipld-prime as documented (Model/Select, Model/Graph). Selects: from some depth of recursion on, the result is this one. Reaches and GitObj.refs (Spec/Select) are told from the texts. Links are loaded with the prototype Any; what happens with the prototypes of typed links is C65. Where git itself reads other references in a commit that repeats its headers is C102."
  }
 ]
}
