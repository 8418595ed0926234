{"id": "C01", "title": "Blob round trip", "statement": "Decoding the git serialization `blob <size>\\0<content>` of any content yields a Blob node whose bytes are exactly that serialization, and encoding that node writes exactly the same bytes back.", "quantifier": "every content byte string, every trailing byte string after the object, every buffered-reader size", "why_tests_cant": "content has unbounded size and arbitrary bytes (NULs, newlines, text that looks like headers); a test samples a few blobs", "anchors": ["blob.go:DecodeBlob", "blob.go:encodeBlob", "unmarshal.go:Decode", "marshal.go:Encode"]}
{"id": "C02", "title": "Decoded blobs are canonical", "statement": "Whatever byte stream is accepted as a blob, the resulting node's bytes are `blob ` ++ decimal size ++ NUL ++ exactly size bytes, so decoding what a decoded blob encodes to gives the same blob again; redundant size spellings (`+5`, `005`) and trailing bytes do not survive.", "quantifier": "every byte stream that decodes as a blob", "why_tests_cant": "the accepted inputs are infinitely many spellings of each blob", "anchors": ["blob.go:DecodeBlob", "helper.go:readNullTerminatedNumber"]}
{"id": "C03", "title": "Short blobs are rejected", "statement": "A blob whose stream ends before the announced number of bytes fails to decode: io.EOF if the whole body is missing, io.ErrUnexpectedEOF if part of it is; a negative size is rejected. A truncated blob is never returned as a shorter blob.", "quantifier": "every announced size, every shorter body", "why_tests_cant": "truncation can happen at any byte of any blob", "anchors": ["blob.go:DecodeBlob"]}
{"id": "C04", "title": "Tree round trip", "statement": "For every sequence of entries (mode without space, name without NUL, 20-byte hash) with pairwise distinct names, encoding the tree and decoding the result gives the same entries in the same order.", "quantifier": "every list of entries, every reader buffer size", "why_tests_cant": "number of entries, names, modes and hashes are unbounded; hashes contain every byte value including the delimiters", "anchors": ["tree.go:DecodeTree", "tree.go:DecodeTreeEntry", "tree.go:encodeTree", "tree.go:encodeTreeEntry"]}
{"id": "C05", "title": "Tree re-encoding is byte identical", "statement": "For every well-formed git tree object (header with exact decimal size, entries with distinct names), Encode of the decoded node is byte-for-byte the input, so the git hash is preserved.", "quantifier": "every well-formed tree serialization", "why_tests_cant": "hash stability must hold for every tree in every repository", "anchors": ["tree.go:DecodeTree", "tree.go:encodeTree"]}
{"id": "C06", "title": "Duplicate tree names are rejected", "statement": "A tree stream containing two complete entries with the same name never decodes successfully.", "quantifier": "every tree body, any positions of the two entries", "why_tests_cant": "position and content of duplicates are unbounded", "anchors": ["tree.go:DecodeTree", "ipldsch_satisfaction.go:_Tree__ReprAssembler.AssembleEntry"]}
{"id": "C07", "title": "Truncated trees are rejected", "statement": "A tree stream that stops in the middle of an entry fails to decode.", "quantifier": "every tree and every truncation point", "why_tests_cant": "truncation can happen at any byte of any tree", "anchors": ["tree.go:DecodeTree", "tree.go:DecodeTreeEntry"]}
{"id": "C08", "title": "Tree lookup agrees with iteration", "statement": "In every decoded tree, looking up a name returns exactly the entry that iteration reports for that name, and fails for names that iteration does not report; Length is the number of iterated entries.", "quantifier": "every decoded tree and every name", "why_tests_cant": "the map and the ordered table are updated separately for every entry of unboundedly large trees", "anchors": ["ipldsch_satisfaction.go:_Tree.LookupByString", "ipldsch_satisfaction.go:_Tree__MapItr.Next", "ipldsch_satisfaction.go:_Tree__ReprAssembler"]}
{"id": "C09", "title": "Tag round trip", "statement": "For every tag whose fields fit the line format (git link target, single-line type and tag name, well-formed tagger, non-empty message), decoding its encoding gives back the same tag.", "quantifier": "every such tag, with an arbitrary (binary, multi-line) message", "why_tests_cant": "messages and names are arbitrary byte strings", "anchors": ["tag.go:DecodeTag", "tag.go:encodeTag"]}
{"id": "C10", "title": "Tag re-encoding is byte identical", "statement": "For every well-formed git tag object, Encode of the decoded node is byte-for-byte the input.", "quantifier": "every well-formed tag serialization (object, type, tag, optional tagger, optional message)", "why_tests_cant": "hash stability must hold for every tag in every repository", "anchors": ["tag.go:DecodeTag", "tag.go:encodeTag"]}
{"id": "C11", "title": "Commit round trip", "statement": "For every commit whose fields fit the line format, decoding its encoding gives back the same commit: tree, parents, author, committer, encoding, merge tags, signature, other headers and message.", "quantifier": "every such commit: any number of parents, merge tags and other headers, any message", "why_tests_cant": "nested, repeated and free-form parts make the domain unbounded", "anchors": ["commit.go:DecodeCommit", "commit.go:decodeCommitLine", "commit.go:encodeCommit", "tag.go:readMergeTag"]}
{"id": "C12", "title": "Commit re-encoding is byte identical", "statement": "For every well-formed git commit object, Encode of the decoded node is byte-for-byte the input.", "quantifier": "every well-formed commit serialization", "why_tests_cant": "hash stability must hold for every commit in every repository", "anchors": ["commit.go:DecodeCommit", "commit.go:encodeCommit"]}
{"id": "C13", "title": "Messages are preserved verbatim", "statement": "Everything after the first blank line of a commit or tag, byte for byte, is the message of the decoded node: no newline normalisation, no truncation at NUL, no length limit.", "quantifier": "every message byte string after every accepted header block", "why_tests_cant": "messages are arbitrary byte strings of any length", "anchors": ["commit.go:decodeCommitLine", "tag.go:DecodeTag"]}
{"id": "C14", "title": "Parents keep their order", "statement": "The parents of a decoded commit are exactly the `parent` header hashes, in stream order, with repetitions, for any number of parents.", "quantifier": "every number and order of parent lines", "why_tests_cant": "octopus merges have any number of parents", "anchors": ["commit.go:decodeCommitLine"]}
{"id": "C15", "title": "Announced size is the body length", "statement": "Whenever Encode succeeds on a tree, commit or tag node, the output is `<type> <n>\\0` followed by exactly n bytes, n in canonical decimal.", "quantifier": "every node that Encode accepts as tree, commit or tag", "why_tests_cant": "output sizes are unbounded", "anchors": ["tree.go:encodeTree", "commit.go:encodeCommit", "tag.go:encodeTag"]}
{"id": "C16", "title": "Every decoded link names a git object", "statement": "Every link in a decoded tree, commit or tag (tree, parents, tag target, merge tag targets, entry hashes) is a CIDv1 with codec git-raw and a 20-byte sha1 multihash whose digest is the hash that stood in the stream; only the tree of a commit without tree header and the target of a tag without object header are missing (nil).", "quantifier": "every stream that decodes", "why_tests_cant": "any link of unboundedly many could be malformed", "anchors": ["util.go:shaToCid", "commit.go:decodeCommitLine", "tag.go:DecodeTag", "tag.go:readMergeTag", "tree.go:DecodeTreeEntry"]}
{"id": "C17", "title": "Malformed references are rejected", "statement": "A commit or tag header whose object reference is not exactly 40 hexadecimal digits makes Decode fail; it is never stored as a shorter or longer hash.", "quantifier": "every reference string", "why_tests_cant": "all wrong lengths and all non-hex bytes", "anchors": ["util.go:shaToCid", "commit.go:decodeCommitLine", "tag.go:DecodeTag", "tag.go:readMergeTag"]}
{"id": "C18", "title": "Hash to link and back", "statement": "Turning a 20-byte git hash into a link and back yields the same hash, distinct hashes give distinct links, and every other length is rejected.", "quantifier": "every byte string", "why_tests_cant": "2^160 hashes and infinitely many wrong lengths", "anchors": ["util.go:shaToCid", "util.go:cidToSha"]}
{"id": "C19", "title": "Person line round trip", "statement": "Formatting a person (name, email, date, timezone) and parsing the line gives back the same person, exactly for the persons the format can express.", "quantifier": "every person and every line prefix word", "why_tests_cant": "names and emails are arbitrary byte strings with spaces and angle brackets", "anchors": ["personinfo.go:parsePersonInfo", "personinfo.go:GitString"]}
{"id": "C20", "title": "Person lines are preserved", "statement": "For every line `<word> <name> <<email>> <date> <tz>` that git writes, formatting the parsed person reproduces the line.", "quantifier": "every name and email, including empty and multi-word ones", "why_tests_cant": "names and emails are arbitrary byte strings", "anchors": ["personinfo.go:parsePersonInfo", "personinfo.go:GitString"]}
{"id": "C21", "title": "Decoding never panics", "statement": "Decode and ParseObject return a node or an error on every input; they never panic (no index or slice out of range).", "quantifier": "every byte stream, every terminal read error, every buffer size", "why_tests_cant": "malformed inputs are unbounded; past releases panicked on double spaces in an email", "anchors": ["unmarshal.go:Decode", "unmarshal.go:ParseObject", "personinfo.go:parsePersonInfo", "commit.go:decodeCommitLine", "tree.go:DecodeTreeEntry"]}
{"id": "C22", "title": "Decoding terminates", "statement": "Decode returns after reading finitely much: every pass through its loops consumes input, so the number of steps is bounded by the length of the input.", "quantifier": "every finite byte stream", "why_tests_cant": "non-termination cannot be observed by a finite test", "anchors": ["commit.go:DecodeCommit", "tag.go:DecodeTag", "tag.go:readMergeTag", "commit.go:decodeGpgSig", "tree.go:DecodeTree"]}
{"id": "C23", "title": "Decoding does not depend on how the reader delivers bytes", "statement": "The node or error produced depends only on the bytes of the stream, not on how the io.Reader splits them over Read calls.", "quantifier": "every byte stream and every split of it into reads, including empty reads and EOF returned together with data", "why_tests_cant": "the number of schedules is exponential in the input length", "anchors": ["unmarshal.go:Decode", "commit.go:DecodeCommit", "tag.go:DecodeTag", "tree.go:DecodeTree", "blob.go:DecodeBlob"]}
{"id": "C24", "title": "Read failures are reported", "statement": "If the underlying reader fails with an error other than EOF, decoding a tree, commit or tag fails; decoding a blob fails unless the whole body had already arrived.", "quantifier": "every failure point in every stream", "why_tests_cant": "the failure can happen at any byte", "anchors": ["unmarshal.go:Decode", "commit.go:DecodeCommit", "tree.go:DecodeTree", "tag.go:DecodeTag", "blob.go:DecodeBlob"]}
{"id": "C25", "title": "ParseObject agrees with Decode", "statement": "ParseObject, ParseObjectFromBuffer and Decode into a builder of the matching type produce the same node or the same error for every stream.", "quantifier": "every byte stream", "why_tests_cant": "the two dispatchers are separate copies of the same switch", "anchors": ["unmarshal.go:Decode", "unmarshal.go:ParseObject", "helper.go:ParseObjectFromBuffer"]}
{"id": "C26", "title": "DecodeBlock accepts exactly git CIDs", "statement": "DecodeBlock parses the block data if and only if the block's CID has codec git-raw and a 20-byte sha1 multihash; otherwise it fails without looking at the data.", "quantifier": "every CID prefix and block content", "why_tests_cant": "codec, hash function and length range over all integers", "anchors": ["helper.go:DecodeBlock"]}
{"id": "C27", "title": "Unknown object types are rejected", "statement": "A stream that does not begin with one of the four type words followed by a space is rejected; a stream without any space is reported as unexpected EOF.", "quantifier": "every byte stream", "why_tests_cant": "infinitely many wrong prefixes", "anchors": ["unmarshal.go:Decode", "unmarshal.go:ParseObject"]}
{"id": "C28", "title": "Encodings are unambiguous", "statement": "Two well-formed objects with the same encoding are equal, and the type of an encoded object is determined by its bytes; so different objects never share a git hash input.", "quantifier": "every pair of well-formed objects of any types", "why_tests_cant": "pairs of unbounded objects", "anchors": ["marshal.go:Encode", "unmarshal.go:Decode"]}
{"id": "C29", "title": "A failing writer never makes Encode succeed", "statement": "Encode returns nil only if the writer accepted the complete encoding; whatever happens, the bytes the writer accepted are a prefix of the encoding.", "quantifier": "every node and every writer that accepts some bytes and then fails", "why_tests_cant": "the writer can fail at any byte", "anchors": ["blob.go:encodeBlob", "tree.go:encodeTree", "commit.go:encodeCommit", "tag.go:encodeTag"]}
{"id": "C30", "title": "Re-encoding a decoded object never panics", "statement": "Encode of any node obtained from Decode returns bytes or an error; it does not panic.", "quantifier": "every stream that decodes", "why_tests_cant": "decoded nodes range over all accepted inputs", "anchors": ["commit.go:encodeCommit", "util.go:cidToSha", "personinfo.go:GitString"]}
{"id": "C31", "title": "Representation view encodes like the typed view", "statement": "Encode of node.Representation() writes the same bytes as Encode of the node, for blobs, trees, tags and commits.", "quantifier": "every typed node", "why_tests_cant": "nodes are unbounded", "anchors": ["marshal.go:Encode", "commit.go:encodeCommit", "ipldsch_satisfaction.go:_Commit__ReprAssembler.AssignNode", "ipldsch_satisfaction.go:_PersonInfo__ReprAssembler.AssembleValue"]}
{"id": "C32", "title": "Signatures are preserved verbatim", "statement": "The lines between the `gpgsig -----BEGIN PGP SIGNATURE-----` and ` -----END PGP SIGNATURE-----` lines of a commit are the signature of the decoded commit, byte for byte, and are written back unchanged.", "quantifier": "every signature block of any number of lines", "why_tests_cant": "signatures have any number of lines", "anchors": ["commit.go:decodeGpgSig", "commit.go:encodeCommit"]}
{"id": "C33", "title": "Unknown commit headers are preserved", "statement": "Header lines of a commit that are not understood are kept, in order, and written back.", "quantifier": "every sequence of unknown header lines", "why_tests_cant": "number and content of lines are unbounded", "anchors": ["commit.go:decodeCommitLine", "commit.go:encodeCommit"]}
{"id": "C34", "title": "Merge tags are preserved", "statement": "Every embedded merge tag of a commit (object, type, tag, tagger, message incl. signature) is decoded in order and written back unchanged; the header after it is not swallowed.", "quantifier": "every number of merge tags with any messages", "why_tests_cant": "number and content of merge tags are unbounded", "anchors": ["tag.go:readMergeTag", "commit.go:decodeCommitLine", "commit.go:encodeCommit"]}
{"id": "C35", "title": "Long header lines survive", "statement": "Decoding does not depend on the length of a header line: a header line longer than the reader's buffer is treated like any other.", "quantifier": "every header line length", "why_tests_cant": "the failing lengths depend on the 4096-byte buffer", "anchors": ["commit.go:DecodeCommit", "tag.go:DecodeTag", "tag.go:readMergeTag", "commit.go:decodeGpgSig"]}
{"id": "C36", "title": "Truncated commits and tags are rejected", "statement": "A commit or tag stream that stops before the announced size fails to decode.", "quantifier": "every commit or tag and every truncation point", "why_tests_cant": "truncation can happen at any byte", "anchors": ["commit.go:DecodeCommit", "tag.go:DecodeTag", "helper.go:readNullTerminatedNumber"]}
{"id": "C37", "title": "Encode dispatches on node shape", "statement": "Encode of a node that is not one of the package's own types picks the object type from the node's kind and first map key, and returns an error or the encoding, never a panic.", "quantifier": "every data-model node", "why_tests_cant": "nodes are arbitrary recursive values", "anchors": ["marshal.go:Encode", "tag.go:encodeTag", "commit.go:encodeCommit", "tree.go:encodeTree"]}
{"id": "C38", "title": "Builders enforce the schema", "statement": "Assigning any data-model map to a builder succeeds only if every required field is present exactly once with a value of the right kind and no unknown field occurs, and then the built node has exactly those field values.", "quantifier": "every data-model node, for TreeEntry, PersonInfo, Tag and Commit", "why_tests_cant": "maps have any number of entries in any order", "anchors": ["ipldsch_satisfaction.go:_PersonInfo__ReprAssembler", "ipldsch_satisfaction.go:_Tag__ReprAssembler", "ipldsch_satisfaction.go:_Commit__ReprAssembler", "ipldsch_satisfaction.go:_TreeEntry__ReprAssembler"]}
{"id": "C39", "title": "Trees never hold duplicate names", "statement": "However a Tree is built through the assembler API, it never contains two entries with the same name.", "quantifier": "every sequence of assembler calls", "why_tests_cant": "call sequences are unbounded", "anchors": ["ipldsch_satisfaction.go:_Tree__Assembler.AssembleEntry", "ipldsch_satisfaction.go:_Tree__Assembler.AssembleKey", "ipldsch_satisfaction.go:_Tree__Assembler.keyFinishTidy"]}
{"id": "C40", "title": "Tree map pointers stay valid while the table grows", "statement": "Although the lookup map stores pointers into a table that is reallocated as it grows, a lookup in a finished tree always returns the value that was assigned last for that key.", "quantifier": "every sequence of entries and every growth policy of append", "why_tests_cant": "aliasing depends on when the runtime reallocates", "anchors": ["ipldsch_satisfaction.go:_Tree__Assembler.AssembleEntry", "ipldsch_satisfaction.go:_Tree__Assembler.valueFinishTidy"]}
{"id": "C41", "title": "Node iteration matches lookup and length", "statement": "For PersonInfo, Tag, TreeEntry and Commit nodes, in both the typed and the representation view, iteration yields the schema fields in order without repetition, Length is the number of entries (absent optional fields are reported as Absent in the typed view and skipped in the representation view) and each iterated value is what LookupByString returns for its key.", "quantifier": "every node of these types", "why_tests_cant": "nodes are unbounded; every combination of absent fields", "anchors": ["ipldsch_satisfaction.go:_Commit__MapItr", "ipldsch_satisfaction.go:_Commit__ReprMapItr", "ipldsch_satisfaction.go:_Commit.LookupByString"]}
{"id": "C42", "title": "Size header is range checked", "statement": "The decimal size of blob, tree and commit headers is accepted exactly when it is an optionally signed non-empty digit string whose value fits a 64-bit signed integer, and its value is read correctly.", "quantifier": "every header byte string", "why_tests_cant": "digit strings of any length; overflow boundaries", "anchors": ["helper.go:readNullTerminatedNumber"]}
{"id": "C43", "title": "Decoding invents nothing", "statement": "Every value of a decoded object stands in the stream: each field that is not missing is exactly the bytes behind its header word (links in hexadecimal, emails up to dropped `<` characters, signatures and merge tag messages line by line, messages as the end of the stream).", "quantifier": "every stream that decodes", "why_tests_cant": "decoded objects range over all accepted inputs", "anchors": ["commit.go:DecodeCommit", "commit.go:decodeCommitLine", "commit.go:decodeGpgSig", "tag.go:DecodeTag", "tag.go:readMergeTag", "tree.go:DecodeTreeEntry", "blob.go:DecodeBlob", "personinfo.go:parsePersonInfo"]}
{"id": "C44", "title": "Decoding into a builder of another type is refused", "statement": "Decode into a fresh builder of any of the package's prototypes gives the builder's type or an error: a stream holding an object of that type is built exactly, every other stream is refused with an error and never makes the builder panic or hold an object of the wrong type.", "quantifier": "every prototype, every stream", "why_tests_cant": "the product of 14 prototypes and all streams; tests decode into matching builders only", "anchors": ["unmarshal.go:Decode", "ipldsch_satisfaction.go:_Tree__Assembler.AssignNode", "ipldsch_satisfaction.go:_Commit__ReprAssembler.AssignNode"]}
{"id": "C45", "title": "Re-encoding settles after one round", "statement": "The bytes that Encode writes for a decoded object decode to the same object again and are written again unchanged, so normalising an object twice is the same as normalising it once.", "quantifier": "every accepted stream", "why_tests_cant": "accepted streams include malformed ones that no fixture covers", "anchors": ["unmarshal.go:ParseObject", "marshal.go:Encode", "commit.go:decodeCommitLine", "personinfo.go:parsePersonInfo"]}
{"id": "C46", "title": "A builder driven call by call builds exactly what the calls spell out", "statement": "Whatever methods a client calls on a builder of a scalar, list or struct type and, at every depth, on the handle given out last, in whatever order and whether or not it stops at errors: if nothing panics and Build returns a value, the calls that returned no error spell out exactly that value and the others had no effect; every way to spell out a value succeeds; and no required field is missing at any depth unless an incomplete value was handed over whole.", "quantifier": "every type, every sequence of calls at every nesting depth", "why_tests_cant": "call sequences are unbounded and nested; tests build by AssignNode or in one fixed order", "anchors": ["ipldsch_satisfaction.go:_Commit__Assembler", "ipldsch_satisfaction.go:_Commit__ReprAssembler", "ipldsch_satisfaction.go:_Tag_List__Assembler", "ipldsch_satisfaction.go:_PersonInfo__Assembler", "ipldsch_satisfaction.go:_String__Assembler"]}
{"id": "C47", "title": "A built value can no longer be changed through its builder", "statement": "After Build has returned a value, no call on the builder or on any handle obtained from it succeeds or changes the value.", "quantifier": "every type, every history of calls before Build and every sequence of calls after it", "why_tests_cant": "misuse after Build is not exercised, and its effect depends on which handles were kept", "anchors": ["ipldsch_satisfaction.go:_Commit__ReprAssembler.valueFinishTidy", "ipldsch_satisfaction.go:_Commit__Assembler.valueFinishTidy", "ipldsch_satisfaction.go:_PersonInfo__ReprAssembler.AssignNode", "ipldsch_satisfaction.go:_String__Assembler.AssignString"]}
{"id": "C48", "title": "A path leads where iteration says", "statement": "Following a path segment by segment with LookupBySegment in any node of the package, typed or representation view, returns exactly the node found by iterating over maps and lists along the path; everything else is an error, never a panic. Lists report indices 0, 1, 2, ... and LookupByIndex agrees with them.", "quantifier": "every object, both views, every path of string and number segments", "why_tests_cant": "paths and nesting are unbounded and segment texts are arbitrary strings", "anchors": ["ipldsch_satisfaction.go:Commit_Link_List.LookupBySegment", "ipldsch_satisfaction.go:Commit_Link_List.LookupByIndex", "ipldsch_satisfaction.go:_Commit_Link_List__ListItr.Next", "ipldsch_satisfaction.go:Commit.LookupBySegment", "ipldsch_satisfaction.go:_Tree__Repr.LookupBySegment", "ipldsch_satisfaction.go:_Tag_List__Repr.LookupByIndex"]}
{"id": "C49", "title": "Lookup by node agrees with lookup by string or index", "statement": "LookupByNode on a map with a key node of string kind is LookupByString with the key's text, on a list with an int node it is LookupByIndex with its value, and with every other key it is an error and never a panic.", "quantifier": "every node of the package, both views, every key node of the package or of basicnode", "why_tests_cant": "keys range over all node implementations; tests use LookupByString", "anchors": ["ipldsch_satisfaction.go:Tree.LookupByNode", "ipldsch_satisfaction.go:Commit.LookupByNode", "ipldsch_satisfaction.go:String_List.LookupByNode", "ipldsch_satisfaction.go:_Tree__Repr.LookupByNode"]}
{"id": "C50", "title": "Which streams are blobs and trees", "statement": "ParseObject reads a stream as a blob exactly if it is 'blob', a space, a number from 0 to 2^63-1 in decimal with optional sign and leading zeros, NUL and at least that many bytes, and the node holds exactly these bytes; it reads a stream as a tree exactly if the stream ends without a read error and is 'tree', a space, any 64-bit number, NUL, complete entries with distinct names, and possibly one entry cut off before its hash, and the tree holds exactly these entries.", "quantifier": "every stream, every resulting node", "why_tests_cant": "both directions quantify over all byte strings; fixtures are well-formed objects written by git", "anchors": ["unmarshal.go:ParseObject", "blob.go:DecodeBlob", "tree.go:DecodeTree", "tree.go:DecodeTreeEntry", "helper.go:readNullTerminatedNumber"]}
{"id": "C51", "title": "Which streams are tags", "statement": "ParseObject reads a stream as a tag exactly if the stream ends without a read error and is 'tag', a space, anything up to a NUL, header lines (ended by LF or CRLF, cut at the buffer size) and possibly a blank line and a message; object lines must hold references and tagger lines persons, the last line with a keyword counts, and lines with unknown keywords are ignored.", "quantifier": "every stream, every reader buffer of at least two bytes, every resulting tag", "why_tests_cant": "both directions quantify over all byte strings, including repeated, reordered, missing and unknown headers", "anchors": ["tag.go:DecodeTag", "tag.go:readMergeTag", "unmarshal.go:ParseObject"]}
{"id": "C52", "title": "Which streams are commits", "statement": "ParseObject reads a stream as a commit exactly if the stream ends without a read error and is 'commit', a space, any 64-bit number, NUL, header blocks (lines, signatures, merge tags) and possibly a blank line and a message; tree, parent and merge tag references and persons must be valid, the last line with a keyword counts, parents, merge tags and unknown lines are collected in order, and a signature must begin in one of three ways and end with the PGP end line.", "quantifier": "every stream, every reader buffer of at least two bytes, every resulting commit", "why_tests_cant": "the grammar is recursive and its malformed members are not in any fixture", "anchors": ["commit.go:DecodeCommit", "commit.go:decodeCommitLine", "commit.go:decodeGpgSig", "tag.go:readMergeTag"]}
{"id": "C53", "title": "Which lines are persons", "statement": "parsePersonInfo accepts a line exactly if it has at least three space-separated words, a later word beginning with '<' and a word from there on ending in '>'; name, email, date and timezone are the words before, between and after these two. Every other line is refused with an error.", "quantifier": "every line", "why_tests_cant": "names and emails may hold spaces, angle brackets and nothing at all in any arrangement", "anchors": ["personinfo.go:parsePersonInfo"]}
{"id": "C54", "title": "Header order does not matter to the decoder", "statement": "Two commits or two tags with the same header lines in different orders decode to the same object, provided lines with the same keyword, unknown lines, signatures and merge tags each keep their order.", "quantifier": "all pairs of accepted streams", "why_tests_cant": "relates pairs of streams; fixtures have git's one order", "anchors": ["commit.go:decodeCommitLine", "tag.go:DecodeTag"]}
{"id": "C55", "title": "Lines are used only while the buffer still holds them", "statement": "ReadLine returns slices of the reader's own buffer, which later reads overwrite. Decode and ParseObject never look at such a slice after a later read: the result is the same whatever the buffer held before, however the underlying reader uses it as scratch space and whatever becomes of old slices.", "quantifier": "every io.Reader that returns no more than it is asked for, every buffer size and content, every stream", "why_tests_cant": "whether a stale slice is overwritten depends on how chunks fall into the buffer; tests read small objects in one piece", "anchors": ["commit.go:DecodeCommit", "commit.go:decodeCommitLine", "tag.go:readMergeTag", "tag.go:DecodeTag", "commit.go:decodeGpgSig"]}
{"id": "C56", "title": "A built node never changes", "statement": "What can be read from a node that a builder has returned stays the same, whatever is done later with this builder and with others, including builders that were given the node.", "quantifier": "any number of list, tree, person and commit builders in one memory, every sequence of calls on them, every growth policy of append", "why_tests_cant": "the builders share arrays, maps and pointers after AssignNode, and whether a write is seen elsewhere depends on the order of calls and on spare capacity", "anchors": ["ipldsch_satisfaction.go:_Tree__Assembler.AssignNode", "ipldsch_satisfaction.go:_Commit__Assembler.AssignNode", "ipldsch_satisfaction.go:_Commit_Link_List__Assembler.AssignNode", "ipldsch_satisfaction.go:_PersonInfo__Assembler.AssignNode"]}
{"id": "C57", "title": "A failed read is not forgotten", "statement": "If a Read returns an error other than EOF before the object is complete, decoding fails, whatever later Reads return.", "quantifier": "every io.Reader whose first error is not EOF, with any behaviour after that error; every stream and failure point", "why_tests_cant": "the error has to fall into a chosen place of the stream and the reader has to recover afterwards", "anchors": ["unmarshal.go:Decode", "commit.go:DecodeCommit", "tag.go:DecodeTag", "tree.go:DecodeTree", "blob.go:DecodeBlob"]}
{"id": "C58", "title": "The typed accessors agree with the node interface", "statement": "Every FieldX method of a struct gives the node that LookupByString reports for the field; for an optional field it gives a handle on which exactly one of IsAbsent and Exists holds, whose AsNode is that node and whose Must returns the value exactly if it is there. Lookup and LookupMaybe of lists and trees give the value where LookupByIndex or LookupByString succeeds, and nil or an absent handle where it reports that there is none. Typed iterators report what the untyped ones report, in the same order.", "quantifier": "every value of every type, every index, key and number of steps", "why_tests_cant": "values, indices and lengths are unbounded; the generated accessors are not called by any test", "anchors": ["ipldsch_satisfaction.go:_Commit.FieldAuthor", "ipldsch_satisfaction.go:MaybePersonInfo.Must", "ipldsch_satisfaction.go:_Commit_Link_List.LookupMaybe", "ipldsch_satisfaction.go:_Tree.LookupMaybe", "ipldsch_satisfaction.go:Tree__Itr.Next", "ipldsch_satisfaction.go:String_List__Itr.Next"]}
{"id": "C59", "title": "What decoding prints", "statement": "Decode and ParseObject write to standard output only when they read a tag, and then one line for each header line without a known keyword, in order, up to the blank line or the first invalid line, whether decoding succeeds or not. What is printed does not influence the result.", "quantifier": "every stream and every io.Reader delivering it, every assembler", "why_tests_cant": "the output is a side effect that no test captures, for all streams including those that fail half way", "anchors": ["tag.go:DecodeTag", "unmarshal.go:ParseObject", "unmarshal.go:Decode"]}
{"id": "C60", "title": "What is left of a truncated commit or tag", "statement": "A commit that stops early is accepted exactly if it stops in the message, after a header item that is not a merge tag, or inside an item such that the rest of it can be read: a shorter line counts as it stands, with a complete reference or person where one is needed; a signature needs the text of its closing line; a merge tag may stop before its separator line. A tag that stops early is accepted exactly if it stops in the message or its last header line, as it stands, can be read. The result is the object with the headers up to there.", "quantifier": "every well-formed commit and tag, with any headers in any order, and every prefix of its stream", "why_tests_cant": "truncation can happen at any byte of any header; tests cut a few fixtures at most", "anchors": ["commit.go:DecodeCommit", "commit.go:decodeCommitLine", "commit.go:decodeGpgSig", "tag.go:DecodeTag", "tag.go:readMergeTag"]}
{"id": "C61", "title": "Which commits and tags are reproduced byte for byte", "statement": "A well-formed commit, decoded and encoded again, gives the input exactly if its headers are one tree, the parents, one author, one committer, at most one encoding, the merge tags, at most one signature and the unknown headers, in this order, with lower-case references. A well-formed tag gives the input exactly if its header lines are one object, one type, one tag and one tagger, in this order, with a lower-case reference, and it has no empty message. Each text has one reading as headers and message.", "quantifier": "every well-formed header sequence in any order with any repetitions, every message", "why_tests_cant": "header sequences are unbounded, and a sequence that is changed may by chance have the same bytes", "anchors": ["commit.go:DecodeCommit", "commit.go:encodeCommit", "tag.go:DecodeTag", "tag.go:encodeTag"]}
{"id": "C62", "title": "Which values survive encoding and decoding", "statement": "A tree is encoded and read back with the same rows exactly if its names are distinct and have no NUL, its modes have no space and its links are git links. A tag is encoded and read back unchanged exactly if its object is a git link, type and name stay within one line, and its tagger can be written as a person line. A commit is encoded and read back unchanged exactly if tree, parents and merge tag objects are git links, author and committer are present and can be written as person lines, encoding and unknown headers stay within one line, unknown headers do not look like known ones, merge tag messages are indented lines, the signature is text that a signature block can hold, and no indented unknown header directly follows a merge tag. No header line may be as long as the reader's buffer, except that the type, name and tagger lines of a merge tag, and the tagger line of a tag without message, may just fill it.", "quantifier": "every tree, tag and commit value that can be built, header lines of any length, every buffer of at least 4096 bytes", "why_tests_cant": "builders accept any bytes in any field, and which of them the text format confuses depends on combinations of fields", "anchors": ["commit.go:encodeCommit", "commit.go:DecodeCommit", "tag.go:encodeTag", "tag.go:DecodeTag", "tree.go:encodeTree", "tree.go:DecodeTree", "personinfo.go:parsePersonInfo"]}
{"id": "C63", "title": "A node answers as its kind says", "statement": "Every AsX method and every lookup is refused exactly on the nodes whose kind it makes no sense on, and the error names the type of the node, the method that was called and the kind that the node reports. A scalar gives out its value through the one AsX method of its kind and its own accessor, and is what its prototype's FromX method was given. Exactly maps have a map iterator and exactly lists a list iterator; Length is the number of their entries and -1 for the others. No node is null or absent.", "quantifier": "every value of every type in both views, every method and argument", "why_tests_cant": "there are 22 node types with 16 methods each and unboundedly many values; the tests call few of them", "anchors": ["ipldsch_satisfaction.go:Blob.AsBytes", "ipldsch_satisfaction.go:String.AsString", "ipldsch_satisfaction.go:Link.AsLink", "ipldsch_satisfaction.go:Commit.AsBool", "ipldsch_satisfaction.go:_Commit__Repr.Length", "ipldsch_satisfaction.go:_String__Prototype.FromString"]}
{"id": "C64", "title": "The nodes of a type are the data of the schema", "statement": "What a client reads from a node of any type, going down through iterators and AsX methods, is data of that type in the schema the code was generated from: fields in order, optional fields left out in the representation and listed as absent in the typed view, distinct names in trees. Conversely, every data of a type is read from some value of that type and from only one. Both views show the same value, everything that is decoded conforms, and typed links name the type the schema says.", "quantifier": "every value of every type, every data of every type, every stream that decodes", "why_tests_cant": "conformance ranges over all values and all data of recursive size", "anchors": ["gen/gen.go:main", "ipldsch_satisfaction.go:_Commit__ReprMapItr.Next", "ipldsch_satisfaction.go:_Commit__MapItr.Next", "ipldsch_satisfaction.go:Commit_Link.LinkTargetNodePrototype", "ipldsch_types.go:_Commit"]}
{"id": "C65", "title": "Paths across the git graph", "statement": "In a link system that has the codec and a repository of well-formed objects under their hashes, a path leads from an object through the references of the objects (a commit's tree, parents and merge tag objects, a tag's object, a tree entry's hash) to nodes that show the objects referred to. Exactly the paths that follow references to objects of the repository which are what the reference is meant for, and then stay inside the last object, lead to a node. Exactly those that use a negative number as a list index, or go on to the tree of a commit where this is a commit or a tag, panic; every other path is an error.", "quantifier": "every repository, finite or not, every object in it, every path and every hash function", "why_tests_cant": "repositories are unbounded graphs; the tests follow a few paths in one fixture repository", "anchors": ["init.go:init", "unmarshal.go:Decode", "ipldsch_satisfaction.go:Tree_Link.LinkTargetNodePrototype", "ipldsch_satisfaction.go:Commit_Link.LinkTargetNodePrototype", "ipldsch_satisfaction.go:_Commit__Repr.LookupBySegment", "git_test.go:TestArchiveObjectParse"]}
{"id": "C66", "title": "Storing what was loaded, loading what was stored", "statement": "In a link system that has the codec, an object loaded from a repository is stored again under the link it was loaded from, and nothing changes, if it has the form that Encode writes (headers of commits and tags in its order, no empty tag message); otherwise storing gives another text and link and leaves the old block. Storing a loaded object fails only for commits without author or committer, with a panic. Storing a node that shows a well-formed object adds exactly that object to the repository under its hash. What is stored from a typed node is loaded again with the same content exactly if the content can be expressed in the format and its header lines fit the reader's buffer. Of any blocks whatever, well-formed or not, that can be loaded, exactly the plain files of C123 are stored again under their links; of every other, storing gives another text or none and leaves the block.", "quantifier": "every repository, object, prototype and hash function; every block that can be loaded; every blob, tree, tag and commit value, header lines of any length", "why_tests_cant": "which objects keep their links depends on the whole header sequence; tests re-encode fixtures that git itself wrote", "anchors": ["init.go:init", "marshal.go:Encode", "unmarshal.go:Decode", "commit.go:encodeCommit", "tag.go:encodeTag", "tree.go:encodeTree", "blob.go:encodeBlob"]}
{"id": "C67", "title": "An assembler takes what its type says", "statement": "Of the methods that begin a map or list or assign a scalar, every assembler takes exactly the one of its type's kind; no type takes null. The others are refused in every state and change nothing, with an error that names the type of the assembler, the method and the kind of the type; only AssignNull panics once something has been assigned, and in the representation view of lists, structs and trees its error names the type with .Repr twice. AssignNode refuses every node of another kind than the type's. Keys take strings only.", "quantifier": "every assembler of every type in both views, every state and every method and node", "why_tests_cant": "there are 22 assemblers and 8 key assemblers with 10 methods each, in unboundedly many states", "anchors": ["ipldsch_satisfaction.go:_Commit__Assembler.AssignNull", "ipldsch_satisfaction.go:_Commit__ReprAssembler.AssignNull", "ipldsch_satisfaction.go:_Commit__ReprAssembler.AssignNode", "ipldsch_satisfaction.go:_Commit__KeyAssembler.BeginMap", "ipldsch_satisfaction.go:_String__Assembler.AssignBytes", "ipldsch_satisfaction.go:_Tree__Assembler.BeginList"]}
{"id": "C68", "title": "A node can be copied through its prototype", "statement": "A node, its representation and the assemblers of its builders name the prototype of their own type and view. Assigning a typed node to a builder from its prototype builds the same value, and so does assigning its representation to a builder from the prototype of the representation, except that commits with an author or committer and trees with entries then panic. What a builder gives out is always a value of its type. Lists and trees name the prototype that all of their elements have, maps that of strings for their keys; asking a struct for the prototype of a value panics.", "quantifier": "every value of every type in both views, every prototype", "why_tests_cant": "copies range over all values; that two of the types cannot be copied from their representation shows only when it is tried for them", "anchors": ["ipldsch_satisfaction.go:Commit.Prototype", "ipldsch_satisfaction.go:_Commit__Repr.Prototype", "ipldsch_satisfaction.go:_Commit__ReprAssembler.AssignNode", "ipldsch_satisfaction.go:_Tree__ReprAssembler.AssignNode", "ipldsch_satisfaction.go:_Tree__ReprAssembler.ValuePrototype", "ipldsch_satisfaction.go:_Commit__Assembler.ValuePrototype"]}
{"id": "C69", "title": "Data given call by call", "statement": "Giving data to a fresh builder the way a decoder of another codec does (scalars by one call, lists and maps element by element, entries named with AssembleEntry or with AssembleKey and AssembleValue, stopping at the first error) ends like AssignNode of a node with that data: the same value is built or the same error returned. It never panics, whatever the data. A commit, tag, person or tree entry is built exactly if the data has its required fields once, optional ones at most once, nothing else, and values of the right kinds; the value has just these. Where the data is that of a commit with an author or committer AssignNode panics, but the calls build the commit.", "quantifier": "every builder of the 12 types other than Blob and Tree, every tree of plain data of any depth, every way of naming entries and every size hint", "why_tests_cant": "data is a tree of any depth and shape, in any order; the repository has no test that fills these builders from another codec", "anchors": ["ipldsch_satisfaction.go:_Commit__ReprAssembler.BeginMap", "ipldsch_satisfaction.go:_Commit__ReprAssembler.AssembleEntry", "ipldsch_satisfaction.go:_Commit__ReprAssembler.AssembleKey", "ipldsch_satisfaction.go:_Commit__ReprAssembler.AssignNode", "ipldsch_satisfaction.go:_Tag_List__ReprAssembler.AssembleValue", "ipldsch_satisfaction.go:_PersonInfo__ReprAssembler.Finish"]}
{"id": "C70", "title": "Through another codec and back", "statement": "What is read from the representation of a value, and given call by call to a builder of its type, builds the same value. Any data that conforms to a type of the schema can be given so and builds a value whose representation reads as that data; no other value of the type is built from it.", "quantifier": "every value of the 12 types other than Blob and Tree, all data conforming to their schema, every series of calls that gives it", "why_tests_cant": "values are unbounded; the tests only decode and encode git's own format", "anchors": ["ipldsch_satisfaction.go:_Commit__Repr.MapIterator", "ipldsch_satisfaction.go:_Commit__ReprBuilder.Build", "ipldsch_satisfaction.go:_Commit__ReprAssembler.Finish", "ipldsch_satisfaction.go:_Tag__ReprAssembler.AssembleEntry", "gen/gen.go:main"]}
{"id": "C71", "title": "Trees given call by call", "statement": "Entries given call by call to a fresh tree builder, each named with AssembleEntry or with AssembleKey and AssembleValue and its value given as data of any shape, build a tree with these rows in order exactly if every value denotes a tree entry and no key given to AssembleEntry was given before; a name is looked up in the last row that has it. Otherwise the calls stop with the error of the first bad entry: ErrRepeatedMapKey, or that with which a tree entry builder refuses the value. They never panic, and data that is not a map is refused as of the wrong kind. What is read from a tree with distinct names builds a tree with the same rows and lookups, while AssignNode of the same data panics.", "quantifier": "every list of entries with data of any depth as values, every mix of the two ways of naming, every size hint and every way in which append grows the table", "why_tests_cant": "the outcome depends on all keys given before and on where append moves the rows; the repository has no test that builds a tree this way", "anchors": ["ipldsch_satisfaction.go:_Tree__ReprAssembler.AssembleEntry", "ipldsch_satisfaction.go:_Tree__ReprAssembler.AssembleKey", "ipldsch_satisfaction.go:_Tree__ReprAssembler.AssembleValue", "ipldsch_satisfaction.go:_Tree__ReprAssembler.Finish", "ipldsch_satisfaction.go:_TreeEntry__ReprAssembler.Finish", "ipldsch_satisfaction.go:Tree.LookupByString"]}
{"id": "C72", "title": "A read failure acts as a line end", "statement": "If the reader fails once in the middle of a line of a commit or tag and then goes on to EOF, decoding gives what it gives for the text with a line end (CR LF) in place of the failure (LF if the line does not end in CR), be it an object or an error; only if the message begins before the failure is the error reported. A failure between two lines, or in the header before the NUL, is reported.", "quantifier": "every io.Reader that delivers any bytes in any pieces, fails once with any error but EOF (alone or with data) and then delivers any other bytes and EOF; every buffer size of 2 or more and torn lines of any length, but for those whose last part, after the parts of one buffer each, fills the buffer, or lacks one byte and ends in CR", "why_tests_cant": "needs a reader that fails once at an arbitrary point and recovers, against all chunkings; the tests read files", "anchors": ["commit.go:DecodeCommit", "commit.go:decodeCommitLine", "tag.go:DecodeTag", "tag.go:readMergeTag", "unmarshal.go:ParseObject"]}
{"id": "C73", "title": "Exactly which decoded objects settle", "statement": "The bytes that Encode writes for a decoded object decode to the same object again exactly if it is a blob or a tree, or a tag or commit that has its object or tree, whose persons have no email with a word beginning with '<' and no timezone without a date, with no written header line ending in CR, and, for a commit with merge tags and no signature, whose first unknown header does not begin with a space. If written header lines are as long as the buffer or longer, exactly those objects settle that survive encoding and decoding as any value would.", "quantifier": "every byte stream, buffer size and decoded object that Encode accepts, header lines of any length", "why_tests_cant": "both directions quantify over all streams that the lenient decoder accepts; tests only have objects written by git", "anchors": ["unmarshal.go:ParseObject", "marshal.go:Encode", "commit.go:encodeCommit", "tag.go:encodeTag", "personinfo.go:parsePersonInfo"]}
{"id": "C74", "title": "A client that uses current handles sees no memory", "statement": "All assemblers of a builder exist from the start and write straight into the value, through pointers that they keep. A client that makes every call on the handle it got last at that depth cannot tell: whether a call returns no error, which error it returns, whether it panics and what Build returns depend only on the calls, as if every value were assembled apart and put into its place when complete; the typed and the representation view do not differ, nor do ways in which append grows.", "quantifier": "every type other than Blob and Tree, both views, every series of calls at every depth with or without errors in it, every growth of arrays; nodes given whole are complete", "why_tests_cant": "aliasing between assemblers shows only in particular interleavings of calls at several depths", "anchors": ["ipldsch_satisfaction.go:_Commit__Assembler.AssembleEntry", "ipldsch_satisfaction.go:_Commit__Assembler.valueFinishTidy", "ipldsch_satisfaction.go:_Commit__ReprAssembler.valueFinishTidy", "ipldsch_satisfaction.go:_Tag_List__Assembler.AssembleValue", "ipldsch_satisfaction.go:_PersonInfo__Assembler.reset"]}
{"id": "C75", "title": "Which builders confuse kept handles", "statement": "If a client also uses handles that it should have let go of, and nothing panics, the value that Build returns is the one that the successful calls spell out, for scalars, for lists of scalars, and for the typed view of people and tree entries. For the representation of people and tree entries, and for tags, lists of tags and commits in both views, it need not be: a required field can be left empty though no call failed.", "quantifier": "every type other than Blob and Tree, both views, every series of calls on any handles ever given out", "why_tests_cant": "a safe builder must withstand all interleavings; that a builder is unsafe takes a particular misuse that no test has", "anchors": ["ipldsch_satisfaction.go:_PersonInfo__ReprAssembler.valueFinishTidy", "ipldsch_satisfaction.go:_PersonInfo__Assembler.valueFinishTidy", "ipldsch_satisfaction.go:_Tag__Assembler.AssembleEntry", "ipldsch_satisfaction.go:_Commit__Assembler.valueFinishTidy", "ipldsch_satisfaction.go:_Link_List__Assembler.BeginList", "ipldsch_satisfaction.go:_PersonInfo__Assembler.AssignNode"]}
{"id": "C76", "title": "Which built values kept handles can change", "statement": "Once Build has returned a value to a client that made its calls on current handles, no further calls on any handles it was ever given, be it the builder, a field, an element or anything below, change what Build and the returned node show, as long as none of them panics; this holds for all types in the typed view and for scalars and lists of scalars in the representation. For people, tree entries, tags, lists of tags and commits in the representation it does not: a kept handle overwrites a field of the finished value.", "quantifier": "every type other than Blob and Tree, both views, every series of calls that builds a value, every later series of calls on any handles ever given out other than AssignNode of a map or list of another type, every growth of arrays; nodes given whole before Build are complete", "why_tests_cant": "needs all later interleavings of calls on all handles against all ways to build; the tests drop their handles", "anchors": ["ipldsch_satisfaction.go:_Commit__Assembler.valueFinishTidy", "ipldsch_satisfaction.go:_Commit__ReprAssembler.valueFinishTidy", "ipldsch_satisfaction.go:_Commit__Builder.Build", "ipldsch_satisfaction.go:_PersonInfo__Assembler.BeginMap", "ipldsch_satisfaction.go:_Tag_List__Assembler.valueFinishTidy", "ipldsch_satisfaction.go:_PersonInfo__ReprAssembler.valueFinishTidy"]}
{"id": "C77", "title": "A tree builder driven call by call builds exactly what the calls spell out", "statement": "Whatever methods a client calls on a tree builder and, at every depth, on the handle given out last, in whatever order and whether or not it stops at errors: if nothing panics and Build returns a tree, the calls that returned no error spell out exactly its rows in order, each named with AssembleEntry by a name that no earlier row has or with AssembleKey by any name, and the calls that returned an error had no effect; a name is looked up in the last row that has it. Every way to spell out a tree succeeds, and none spells out two trees. In particular Build panics until Finish has been called without error.", "quantifier": "every sequence of calls at every nesting depth, every size hint and every way in which append grows the table; AssignNode only for entries, with complete nodes of their own type", "why_tests_cant": "needs all call sequences with errors in between and all reallocations; the tests build trees by decoding", "anchors": ["ipldsch_satisfaction.go:_Tree__Builder.Build", "ipldsch_satisfaction.go:_Tree__Assembler.AssembleEntry", "ipldsch_satisfaction.go:_Tree__Assembler.AssembleKey", "ipldsch_satisfaction.go:_Tree__Assembler.AssembleValue", "ipldsch_satisfaction.go:_Tree__Assembler.Finish", "ipldsch_satisfaction.go:_Tree__Assembler.keyFinishTidy"]}
{"id": "C78", "title": "Tree builders in memory behave as if values were assembled apart", "statement": "The one entry assembler of a tree builder writes straight into the last row of the table, which append may move at any time while the map still points into the arrays it left. A client that makes every call on the handle to be used cannot tell: which calls return an error, which error, and which panic depend only on the calls, in both views and however append grows the table; Build returns the rows that the calls spell out, and looking up a name shows the last row that has it.", "quantifier": "both views, every series of calls on the builder, the entry assembler and its field assemblers with or without errors in it, every growth of arrays and size hint; nodes given whole are complete entries", "why_tests_cant": "stale pointers show only for particular interleavings of calls and reallocations", "anchors": ["ipldsch_satisfaction.go:_Tree__Assembler.AssembleEntry", "ipldsch_satisfaction.go:_Tree__Assembler.valueFinishTidy", "ipldsch_satisfaction.go:_Tree__Assembler.keyFinishTidy", "ipldsch_satisfaction.go:_Tree__Builder.Build", "ipldsch_satisfaction.go:_TreeEntry__Assembler.BeginMap", "ipldsch_satisfaction.go:_TreeEntry__ReprAssembler.AssembleEntry"]}
{"id": "C79", "title": "Kept handles change a built tree only in the representation", "statement": "Once the typed tree builder has returned a tree to a client that made its calls on current handles, no further calls on any handle it was ever given change the rows or what looking up a name shows, as long as none of them panics. In the representation view the kept handle of an entry's mode still writes: after Build, it changes the entry that looking up its name shows while the rows that are iterated and encoded stay as they were.", "quantifier": "both views, every series of calls that builds a tree, every later series of calls on any handles ever given out, every growth of arrays; nodes given whole before Build are complete", "why_tests_cant": "needs all later interleavings of calls on all handles; the tests drop their handles", "anchors": ["ipldsch_satisfaction.go:_TreeEntry__Assembler.valueFinishTidy", "ipldsch_satisfaction.go:_TreeEntry__ReprAssembler.valueFinishTidy", "ipldsch_satisfaction.go:_Tree__Assembler.Finish", "ipldsch_satisfaction.go:_Tree__Builder.Build"]}
{"id": "C80", "title": "Kept handles confuse tree builders in both views", "statement": "If a client of a tree builder also uses handles it should have let go of, the tree that Build returns need not be the one that the successful calls spell out, in either view and though no call returns an error: the entry assembler kept from one row can stand in for the key of the next, which then gets the empty name; and a field handle of one row can write when a later row is begun, after which looking up the name shows another mode than the only row that has it.", "quantifier": "both views; universal claim refuted: a series of calls for each, all successful, nodes given whole complete", "why_tests_cant": "takes a particular misuse that no test has", "anchors": ["ipldsch_satisfaction.go:_Tree__Assembler.AssembleKey", "ipldsch_satisfaction.go:_Tree__Assembler.AssembleValue", "ipldsch_satisfaction.go:_TreeEntry__Assembler.AssignNode", "ipldsch_satisfaction.go:_TreeEntry__Assembler.AssembleEntry"]}
{"id": "C81", "title": "A builder that was reset is a new one", "statement": "Whatever calls were made on a builder and on any handles it gave out, current or kept, with or without errors, and whatever it was reset in between: after Reset it serves a client like a new builder. Any series of calls, of AssignNode with any nodes and of further resets has the same outcomes call by call as on a new builder, Build returns the same value or panics likewise, although assemblers and values of before are still in memory and pointed to.", "quantifier": "every type other than Blob, both views, every history of calls, AssignNode with any nodes and resets that did not panic, every later series of such calls on handles given out since, every growth of arrays", "why_tests_cant": "state that leaks through Reset shows only for particular histories; no test resets a builder", "anchors": ["ipldsch_satisfaction.go:_Commit__Builder.Reset", "ipldsch_satisfaction.go:_Commit__ReprBuilder.Reset", "ipldsch_satisfaction.go:_PersonInfo__Builder.Reset", "ipldsch_satisfaction.go:_Tag_List__Builder.Reset", "ipldsch_satisfaction.go:_Tree__Builder.Reset", "ipldsch_satisfaction.go:_Commit__Builder.Build"]}
{"id": "C82", "title": "Reset lets go of the built value", "statement": "A node that Build returned before Reset never changes afterwards, whatever is called on the builder or on any handles given out before or after Reset and whatever nodes are assigned to them other than a tree that was built there (C86), as long as nothing panics: in both views, and though the client used kept handles while building. Without Reset this is false for the representation (C76, C79): there, Reset is what makes it safe to go on.", "quantifier": "every type other than Blob, both views, every history of calls, AssignNode with any nodes and resets, every later series of such calls and resets on any handles ever given out, every growth of arrays; a tree given to AssignNode is none that the builder built", "why_tests_cant": "needs all interleavings of calls on all handles before and after Reset; the tests neither reset nor keep handles", "anchors": ["ipldsch_satisfaction.go:_Commit__Builder.Reset", "ipldsch_satisfaction.go:_Commit__ReprBuilder.Reset", "ipldsch_satisfaction.go:_PersonInfo__ReprBuilder.Reset", "ipldsch_satisfaction.go:_Tree__ReprBuilder.Reset", "ipldsch_satisfaction.go:_PersonInfo__ReprAssembler.valueFinishTidy"]}
{"id": "C83", "title": "No node assigned to any kept handle changes a value that was built step by step", "statement": "A client builds a value by calls on current handles, giving no struct or list whole. After Build has returned it, no further calls change it in the typed view, as long as none of them panics: not even AssignNode with any node (maps, lists, scalars, null, nodes of the package, nested in any way) on any handle the client was ever given, although AssignNode of a map or list uses the assembler's own loop without BeginMap or BeginList and so without its checks. In the representation this holds exactly for the types without structs.", "quantifier": "all twelve types other than Blob and Tree, both views, every series of calls that builds a value, every later series of calls and AssignNode with every node on any handles, every growth of arrays", "why_tests_cant": "needs all nodes, all handles and all interleavings; the tests call AssignNode on fresh builders only, if at all", "anchors": ["ipldsch_satisfaction.go:_Commit__Assembler.AssignNode", "ipldsch_satisfaction.go:_Commit_Link_List__Assembler.AssignNode", "ipldsch_satisfaction.go:_String__Assembler.AssignNode", "ipldsch_satisfaction.go:_Commit__Assembler.AssembleKey", "ipldsch_satisfaction.go:_Commit__Assembler.Finish", "ipldsch_satisfaction.go:_PersonInfo__Assembler.valueFinishTidy"]}
{"id": "C84", "title": "AssignNode twice on a builder changes what the first call built", "statement": "If structs and lists may be given whole while building, then the value that Build returned can change through AssignNode alone, in both views, for every struct and list type: after AssignNode of a node of the own type and Build, a second AssignNode of a map writes into the fields of the built node, and one of a list appends to it, even when that call returns an error. Exactly the scalar types are free of this.", "quantifier": "all twelve types other than Blob and Tree, both views; for scalars every series of calls and later AssignNode, for each struct and list type a series of calls that changes the value", "why_tests_cant": "takes a second assignment to a finished builder, which no test does", "anchors": ["ipldsch_satisfaction.go:_Commit__Assembler.AssignNode", "ipldsch_satisfaction.go:_PersonInfo__Assembler.AssignNode", "ipldsch_satisfaction.go:_Tag_List__Assembler.AssignNode", "ipldsch_satisfaction.go:_Commit_Link_List__Assembler.AssembleValue", "ipldsch_satisfaction.go:_Commit__Builder.Build"]}
{"id": "C85", "title": "No node assigned to any kept handle changes a tree that was built step by step", "statement": "Once the typed tree builder has returned a tree to a client that made its calls on current handles, neither the rows nor what looking up a name shows change through any further calls, as long as none of them panics: not even through AssignNode with any node or any other tree on the builder, the entry assembler or its field assemblers, although AssignNode of a map runs the builder's own loop without BeginMap. In the representation it is false.", "quantifier": "both views, every series of calls that builds a tree (entries may be given whole), every later series of calls and AssignNode with every node on any handles ever given out, every growth of arrays and size hint", "why_tests_cant": "needs all nodes, all handles and all interleavings; the tests assign nothing to a tree builder", "anchors": ["ipldsch_satisfaction.go:_Tree__Assembler.AssignNode", "ipldsch_satisfaction.go:_Tree__ReprAssembler.AssignNode", "ipldsch_satisfaction.go:_Tree__Assembler.AssembleKey", "ipldsch_satisfaction.go:_Tree__Assembler.Finish", "ipldsch_satisfaction.go:_TreeEntry__Assembler.AssignNode"]}
{"id": "C86", "title": "A builder that is given a tree can change it", "statement": "AssignNode with a tree makes the builder's tree share the table and the map of the given one. If AssignNode is then called again with any map of entries, it succeeds, and Build returns the given rows followed by the new ones; but also the given tree, a node that others may hold, from then on finds each new name when it is looked up, with the new entry even where it had one of that name, while its length and rows are as before. Looking up and iterating the given tree disagree from then on.", "quantifier": "both views, every tree, every list of entries, every room behind the given table and every growth of arrays", "why_tests_cant": "takes a second assignment to a builder that was given a tree and a look at the tree that was given; no test does either", "anchors": ["ipldsch_satisfaction.go:_Tree__Assembler.AssignNode", "ipldsch_satisfaction.go:_Tree__ReprAssembler.AssignNode", "ipldsch_satisfaction.go:_Tree__Assembler.AssembleKey", "ipldsch_satisfaction.go:_Tree__Assembler.keyFinishTidy", "ipldsch_satisfaction.go:Tree.LookupByString", "ipldsch_satisfaction.go:_Tree__Builder.Build"]}
{"id": "C87", "title": "A blob is read up to its end, everything else up to the end of the stream", "statement": "A decoder that has returned a blob has taken from its *bufio.Reader exactly the type word, the size and as many bytes as the size says; what follows can be read from there. So any number of blobs standing one after the other can be read one after the other, each as if it stood alone, and then whatever object follows them. A decoder that has returned a tree, commit or tag has read up to EOF, whatever size was announced: such an object can only be the last one, and what follows it is taken as part of it.", "quantifier": "every stream, every list of blobs followed by any bytes, every buffer size, every io.Reader that delivers the bytes in any pieces (EOF together with data unless the stream ends in CR)", "why_tests_cant": "needs all streams and all positions of buffer boundaries; the tests read one object per reader", "anchors": ["blob.go:DecodeBlob", "tree.go:DecodeTree", "commit.go:DecodeCommit", "tag.go:DecodeTag", "unmarshal.go:ParseObject", "unmarshal.go:Decode"]}
{"id": "C88", "title": "AssignNode makes of any node exactly the value that it gives", "statement": "NewBuilder, AssignNode with any node and Build give exactly this: strings and links as they are, a list element by element, a struct by the names of the entries in any order; a node of the very type is taken as it is. The first thing wrong is the error returned: null or another kind than the type has, an unknown or repeated key, a missing field at the end of its map. Nothing of how the assemblers share memory, reuse child assemblers or grow arrays can be seen in the result. It panics only for a commit whose author or committer is given by its entries. A tree builder builds a given tree and takes an empty map, refuses what is no map, and panics for any other map.", "quantifier": "every type of the package except blobs, both views, every node to any depth (foreign maps and lists, nodes of any type of the package, their representations, and mixtures), every growth of arrays", "why_tests_cant": "needs all nodes and all mixtures of nodes of different types at all depths; the tests assign only nodes that a decoder made", "anchors": ["ipldsch_satisfaction.go:_Commit__Assembler.AssignNode", "ipldsch_satisfaction.go:_Commit__ReprAssembler.AssignNode", "ipldsch_satisfaction.go:_PersonInfo__Assembler.AssignNode", "ipldsch_satisfaction.go:_Tag__Assembler.AssignNode", "ipldsch_satisfaction.go:_TreeEntry__Assembler.AssignNode", "ipldsch_satisfaction.go:_Commit_Link_List__Assembler.AssignNode", "ipldsch_satisfaction.go:_Tag_List__Assembler.AssignNode", "ipldsch_satisfaction.go:_String__Assembler.AssignNode", "ipldsch_satisfaction.go:_Commit__Builder.Build"]}
{"id": "C89", "title": "Errors of the assemblers say what was wrong", "statement": "A call on any current handle of a builder that returns an error says what is wrong with the call, whatever was called before. Finish lists the required fields that have not been named on this handle, all of them and no others, in the order of the schema. An unknown key is reported with the key and with the type of the handle. A repeated key is reported with the key, and only if it was named on this handle before; for a tree by AssembleEntry only. A call that does not suit the type is reported with the name of the type and view; the one oddity is AssignNull in the representation, which says .Repr twice. Conversely a call with which something of this is wrong never succeeds, and what is wrong is one thing only.", "quantifier": "every type of the package except blobs, both views, every series of calls on current handles at any depth, with or without errors before, every next call", "why_tests_cant": "needs all call sequences at all depths; the tests look at no error of an assembler", "anchors": ["ipldsch_satisfaction.go:_Commit__Assembler.Finish", "ipldsch_satisfaction.go:_Commit__ReprAssembler.Finish", "ipldsch_satisfaction.go:_PersonInfo__Assembler.AssembleEntry", "ipldsch_satisfaction.go:_Tag__KeyAssembler.AssignString", "ipldsch_satisfaction.go:_Tag__ReprAssembler.AssignNull", "ipldsch_satisfaction.go:_Tree__Assembler.AssembleEntry"]}
{"id": "C90", "title": "The announced size of a blob reserves no memory", "statement": "DecodeBlob reserves memory for bytes that have arrived, not for bytes that are announced. No array it reserves for the body is larger than four times the bytes collected so far plus 2048, and all arrays together take at most twice that; in terms of the input, a stream of L bytes makes it reserve no array above 4L + 2148 bytes, and at most 8L + 4296 bytes altogether, even if its header announces a size of 2^63 - 1. What it returns does not depend on how the buffer grows.", "quantifier": "every stream and announced size, every io.Reader (for the bound by what was collected: misbehaving ones included), every buffer size of the bufio.Reader, every way the runtime rounds sizes up by at most a factor of two", "why_tests_cant": "a test can announce one large size and hope that the allocation fails; it does not see what was reserved, and needs all streams, pieces and sizes", "anchors": ["blob.go:DecodeBlob", "helper.go:readNullTerminatedNumber"]}
{"id": "C91", "title": "Whom a blob shares its bytes with", "statement": "A blob made by AssignBytes or FromBytes is the slice it was given, not a copy: whatever is later written to the slice is read from the blob. What AsBytes returns is the blob itself, and a blob assigned from a blob by AssignNode has the same bytes for good, whichever of them is written to. A blob shares its bytes with nothing else: of all a client can do, only writing to an element of a slice that is also one of the blob's changes a blob that was built, and then just in that byte; Reset and further use of builders never do. A decoded blob therefore never changes as long as neither it nor a blob assigned from it is asked for its bytes. A builder takes one assignment, builds the same node as often as asked, only after it, and starts over with Reset.", "quantifier": "every sequence of client acts: making, slicing and writing slices, any number of builders and blobs, Assign calls, Build, Reset, FromBytes, AsBytes, decoding any stream, panics recovered from", "why_tests_cant": "needs all interleavings of writes with the use of builders and nodes; the tests never write to a slice after handing it over", "anchors": ["ipldsch_satisfaction.go:_Blob__Assembler.AssignBytes", "ipldsch_satisfaction.go:_Blob__Assembler.AssignNode", "ipldsch_satisfaction.go:_Blob__Builder.Build", "ipldsch_satisfaction.go:_Blob__Builder.Reset", "ipldsch_satisfaction.go:Blob.AsBytes", "ipldsch_satisfaction.go:_Blob__Prototype.FromBytes", "blob.go:DecodeBlob"]}
{"id": "C92", "title": "DeepEqual on the nodes of the package says whether they hold the same", "statement": "ipld.DeepEqual never panics on nodes of the package and gives the same answer in either order. Against any other node it says yes exactly if the same data are read from both, entry for entry in the same order. Two values of one type are equal, in either view, exactly if they are the same value; two objects of whatever types exactly if they are the same object, and trees then whatever their lookup maps. So equal objects have the same encoding, and well-formed objects with the same encoding are equal. Values of different types are equal only if they are the same text, the same link or both empty lists. A value equals its own representation, except for a commit that lacks author, committer, encoding or signature: that never does.", "quantifier": "every value of every type of the package, both views, against every node (foreign maps and lists, values of other types, to any depth)", "why_tests_cant": "needs all pairs of nodes; the tests never compare nodes with DeepEqual, and only a commit that lacks a field shows that the views differ", "anchors": ["ipldsch_satisfaction.go:_Commit__MapItr.Next", "ipldsch_satisfaction.go:_Commit__ReprMapItr.Next", "ipldsch_satisfaction.go:Commit.Length", "ipldsch_satisfaction.go:_Commit__Repr.Length", "ipldsch_satisfaction.go:Tree.Length", "ipldsch_satisfaction.go:_Tree__MapItr.Next", "ipldsch_satisfaction.go:_Commit_Link_List__ListItr.Next"]}
{"id": "C93", "title": "Decoding into nodes that are not of the package", "statement": "Decode into a builder of basicnode.Prototype.Any accepts exactly what ParseObject accepts, with the same errors; the node it builds is encoded as the object is. Decode into a map builder copies a tree, commit or tag entry for entry and refuses blobs; the copy equals the object. But only a tag is encoded from the copy as before: a tree never is, always an error, and a commit only if the copy leaves out the optional fields that are absent, or there are none; if the copy holds an absent field, Encode returns an error though the commit itself can be encoded. Builders of other kinds refuse everything except blobs into bytes.", "quantifier": "every stream, every object, every prototype of basicnode, map builders that copy absent values and those that leave them out", "why_tests_cant": "needs all objects; the tests only decode into the package's own builders, and only a commit that lacks a field shows the loss", "anchors": ["unmarshal.go:Decode", "marshal.go:Encode", "commit.go:encodeCommit", "tag.go:encodeTag", "tree.go:encodeTree", "ipldsch_satisfaction.go:_Commit__ReprAssembler.AssignNode", "ipldsch_satisfaction.go:_Commit__MapItr.Next"]}
{"id": "C94", "title": "How deep the recursion on merge tags goes", "statement": "Each merge tag of a commit that directly follows another costs the decoder one more nested call of decodeCommitLine. Room for d such calls is enough for every input of at most 59 d + 9 bytes, whether it is accepted or not, and for no larger bound: the commit of d merge tags that have only their object line and an empty message has 59 d + 10 bytes, is accepted, and needs d + 1 nested calls. So no stack is large enough for every commit. An accepted commit never needs more than one call more than it has merge tags.", "quantifier": "every input, every depth, every buffer size from 58 bytes (bufio.NewReader makes 4096)", "why_tests_cant": "a test would need an input of the size of the stack, and a stack overflow in Go cannot be recovered from; the bound needs all inputs of a length", "anchors": ["commit.go:decodeCommitLine", "commit.go:DecodeCommit", "tag.go:readMergeTag"]}
{"id": "C95", "title": "How much longer an object can get by decoding and encoding", "statement": "If an input is decoded and what was decoded is encoded, the body that is written has at most 84 bytes for every 59 bytes of the input, plus 134 bytes; the whole file is less than twice as long as the input plus 160 bytes. Trees and blobs never get longer. The factor 84/59 is sharp: merge tags that lack their type, tag and tagger get lines for them when they are encoded, and no smaller factor holds for all commits, whatever constant is added.", "quantifier": "every input that is accepted and can be encoded, every buffer size from 58 bytes (bufio.NewReader makes 4096)", "why_tests_cant": "the bound needs all inputs of all lengths; that it is sharp needs inputs that git does not write", "anchors": ["commit.go:encodeCommit", "commit.go:decodeCommitLine", "tag.go:readMergeTag", "tag.go:encodeTag", "personinfo.go:GitString", "tree.go:encodeTree", "blob.go:DecodeBlob"]}
{"id": "C96", "title": "The checksum of compressed objects is checked for all but blobs", "statement": "ParseCompressedObject returns a tree, commit or tag only if decompression went to its end and the Adler-32 checksum of all decompressed bytes follows; then it returns what ParseObjectFromBuffer returns for these bytes. A blob of less than 4096 bytes that has been decompressed is returned whatever follows it: whether its checksum is wrong or missing, or the rest of the compressed data is damaged, makes no difference. Only of longer blobs it may be noticed. What is returned is always what the decompressed bytes are read as.", "quantifier": "every decompressor that keeps the contract of io.Reader, however it splits the bytes and whether or not its errors come with data, every trailer, every decompressed data (not ending in a full buffer without LF with a CR last, see C23, where so stated)", "why_tests_cant": "which corruption is noticed depends on how the reads of the decompressor fall; a test corrupts one file", "anchors": ["helper.go:ParseCompressedObject", "unmarshal.go:ParseObject", "blob.go:DecodeBlob"]}
{"id": "C97", "title": "What each error of ParseObject means", "statement": "For every error of ParseObject it is known which inputs get it, by grammars over the bytes: a valid beginning, then the first thing that is wrong. Every input is accepted or has exactly one such fault, and the error tells which kind it is. A tree is refused after its size only if it ends within a hash or a name repeats, a tag only for its object or its tagger, a commit only for a reference, a person, or a signature or merge tag that is not well-formed or not closed. io.EOF means that the input ends before the NUL behind the size, or behind that of a blob that is not empty, or within a signature or the message of a merge tag. It never means that there was no object: then it is io.ErrUnexpectedEOF.", "quantifier": "every input, every error, every buffer size from 2 bytes, every reader that keeps the contract of io.Reader and does not return data with EOF", "why_tests_cant": "needs all inputs; the tests only look whether there is an error, and a caller that reads objects until io.EOF takes a cut object for the end", "anchors": ["unmarshal.go:ParseObject", "helper.go:readNullTerminatedNumber", "blob.go:DecodeBlob", "tree.go:DecodeTree", "tree.go:DecodeTreeEntry", "commit.go:DecodeCommit", "commit.go:decodeCommitLine", "commit.go:decodeGpgSig", "tag.go:DecodeTag", "tag.go:readMergeTag", "personinfo.go:parsePersonInfo"]}
{"id": "C98", "title": "Which signatures of commits are understood", "statement": "A commit that git wrote with a signature is accepted exactly if it is a PGP signature whose armour begins with an empty line, a Version or a Comment header; then the node has the lines within the armour as its signature and everything else as if there were no signature. Every commit with an SSH or X.509 signature is refused as having a bad signature. A signature that lacks the line that ends PGP signatures, such as a PGP message, takes the rest of the commit, and the commit is refused with io.EOF. What was signed, the commit without the signature, is what Encode writes for the node without the signature, also where Encode moves the signature, if the other headers are in the encoder's order.", "quantifier": "every commit with well-formed headers, every armour of each format of git, every place of the signature among the headers, every message", "why_tests_cant": "needs all signatures; the test repository has few signed commits, all by PGP", "anchors": ["commit.go:decodeGpgSig", "commit.go:decodeCommitLine", "commit.go:DecodeCommit", "commit.go:encodeCommit"]}
{"id": "C99", "title": "Which links a client finds", "statement": "traversal.SelectLinks on an object of the package, in either view, finds exactly the hashes of a tree's rows, the tree, the parents and the merge tag objects of a commit in this order, the object of a tag, and nothing in a blob; it never fails. A link that names nothing is found exactly in a commit whose text has no tree line and in a tag whose text has no object line. A client that loads what a link names, selects the links of the node and goes on with each reaches exactly what git reaches from there through the objects of the repository.", "quantifier": "every object, both views, every accepted input, every repository, finite or not, every hash function", "why_tests_cant": "needs all repositories; the tests never collect links, and only a commit without a tree shows the empty link", "anchors": ["ipldsch_satisfaction.go:_Commit__MapItr.Next", "ipldsch_satisfaction.go:_Tree__MapItr.Next", "ipldsch_satisfaction.go:_Tag__MapItr.Next", "ipldsch_satisfaction.go:_Commit_Link_List__ListItr.Next", "ipldsch_satisfaction.go:_Tag_List__ListItr.Next", "commit.go:DecodeCommit", "tag.go:DecodeTag", "tree.go:DecodeTree", "unmarshal.go:Decode"]}
{"id": "C100", "title": "Headers of several lines", "statement": "In git a header line that begins with a space continues the header before it. If a commit is decoded and encoded, the headers that the package does not know, such as gpgsig-sha256 with its lines, are written with all their lines, in their order and with no other lines, whatever the lines look like, exactly unless a header that the package knows is continued behind the beginning of an unknown one; then that continuation becomes part of an unknown header. The unknown headers that are written are always the unknown lines of the commit one after the other, without those in front that begin with a space.", "quantifier": "every commit with well-formed header items in any order, every message, every buffer size from 4096", "why_tests_cant": "needs all orders of headers and continuation lines; the tests have few commits with unknown headers and none with a continued known one", "anchors": ["commit.go:decodeCommitLine", "commit.go:DecodeCommit", "commit.go:encodeCommit"]}
{"id": "C101", "title": "Objects through a codec that sorts", "statement": "Codecs such as DAG-CBOR and DAG-JSON sort the entries of maps. A commit or tag that comes back from such a codec, with the entries of its maps in any order, is built as the same commit or tag. A tree comes back with the same rows, in the order of the codec: it encodes to the same bytes exactly if its names were already in that order, whatever the order is. Of the trees that git writes, exactly those survive the order of bytes (DAG-JSON) in which there is no directory together with a name that continues its name by a byte below the slash, such as lib and lib.c.", "quantifier": "every valid object, every order of the entries of its maps, every total order of keys that a codec may sort by", "why_tests_cant": "needs all permutations of the entries and all trees; the tests never take an object through another codec", "anchors": ["tree.go:encodeTree", "tree.go:DecodeTree", "ipldsch_satisfaction.go:_Tree__Assembler.AssembleKey", "ipldsch_satisfaction.go:_Commit__ReprAssembler.AssembleEntry", "ipldsch_satisfaction.go:_Tag__ReprAssembler.AssembleEntry"]}
{"id": "C102", "title": "Where git and the package read different things", "statement": "Git takes the tree from the first line of a commit and the parents from the lines directly behind it. If git reads a commit that the package accepts, the package has git's parents followed by those of all later header lines that begin with 'parent ', so they are the same exactly if there is none, and its tree is that of the last later line that begins with 'tree ', so it is the same exactly if there is none or it names the same. Of the commits that the package accepts, git refuses exactly those that do not begin with a line for the tree ending in LF, or that have a line for a parent ending in CR LF among the first. For git the message begins behind the first empty line; the package has the same message exactly if every signature and merge tag that begins before it is closed there, or it is empty, and else a shorter one. Of a tag git reads object, type and name from the first three lines; the package has the same exactly if no later header line gives another. A tree that git reads is read with the same entries, or refused if a name is repeated.", "quantifier": "every input that is accepted, every buffer size from 49 bytes; for messages and the names of tags, header lines shorter than the buffer that do not end in CR", "why_tests_cant": "needs all inputs, in particular those that git does not write; the tests compare with no other reader", "anchors": ["commit.go:decodeCommitLine", "commit.go:DecodeCommit", "commit.go:decodeGpgSig", "tag.go:readMergeTag", "tag.go:DecodeTag", "tree.go:DecodeTree"]}
{"id": "C103", "title": "What git fsck says after decoding and encoding", "statement": "git fsck accepts a person with several spaces or tabs before its date. It accepts what is written for such a person exactly if there is a single space (tabs may follow it): of a person with a further space the date is lost and the timezone replaced. So a commit that fsck accepts, and in which no later header line gives another author or committer, is written as a commit that fsck accepts exactly if neither of its persons has a further space; it then has the same tree and parents if no later line gives others, and the same persons without the spaces before their names. A tag that fsck accepts is written as one that it accepts exactly if it has a tagger without a further space; a tag without tagger, which fsck only remarks on, is written with one that fsck refuses. In general what is written for a decoded commit is accepted exactly if it has a tree and fsck accepts what is written for the persons.", "quantifier": "every input that the package accepts and fsck accepts, without NUL in it, with the lines of persons and of the tag's name shorter than the buffer; every buffer size from 48 bytes", "why_tests_cant": "needs all texts of persons; the tests have no person with two spaces before the date and run no fsck on what is encoded", "anchors": ["personinfo.go:parsePersonInfo", "personinfo.go:GitString", "commit.go:encodeCommit", "tag.go:encodeTag", "commit.go:DecodeCommit", "tag.go:DecodeTag"]}
{"id": "C104", "title": "What an edit in place makes of an object", "statement": "traversal.FocusedTransform on a value of the package, in either form, at any path, succeeds exactly if the data with the node at the end of the path replaced is data of the value's type, and then gives the value that this data denotes; a function that gives back what it gets gives back the value. Trees: an edit below a name changes that row as the same edit changes the entry alone, in its place, and no other; a new name becomes the last row, wherever git's order wants it. Commits are the exception: besides, no field may be absent and author and committer must be typed nodes or be entered by the path. So the typed node of a commit without encoding or without signature, which is what nearly all commits are, cannot be edited anywhere but in the one field that is missing; the representation of a commit with author and committer cannot be edited anywhere, and panics unless the path begins with the tree, the parents, the message or the author.", "quantifier": "every value of each type, both forms, every path with or without numbers and '-', every function", "why_tests_cant": "needs all paths and all combinations of missing fields; the tests never edit a node, and a commit that has an encoding and a signature can be edited", "anchors": ["ipldsch_satisfaction.go:_Commit__Assembler.BeginMap", "ipldsch_satisfaction.go:_Commit__Assembler.AssembleValue", "ipldsch_satisfaction.go:_Commit__Assembler.Finish", "ipldsch_satisfaction.go:_PersonInfo__Assembler.BeginMap", "ipldsch_satisfaction.go:_PersonInfo__Assembler.AssignNode", "ipldsch_satisfaction.go:_Tree__Assembler.AssembleKey", "ipldsch_satisfaction.go:_Tag__Assembler.AssembleKey", "ipldsch_satisfaction.go:_Commit__MapItr.Next"]}
{"id": "C105", "title": "The work of decoding", "statement": "Counting every byte that ParseObject reads, converts or copies, also when arrays of builders and slices are moved to larger ones, decoding an input of n bytes takes at most 2 (M + 17) n + 26 steps, where M is the length of its longest line, or the size of the read buffer if that is smaller. So it is linear in the input for every buffer. Trees and blobs take at most 5 n + 1 and 2 n + 26, signatures and the messages of merge tags at most 24 per byte, whatever the buffer. The factor for the other headers is needed: names of persons are put together with +=, so tags that consist of tagger lines of 2 m + 10 bytes, within the buffer, are accepted and take at least m (m + 1) steps for each.", "quantifier": "every input, complete or failing, every buffer size, every rule of growth by at least a quarter, such as that of Go's runtime", "why_tests_cant": "needs all inputs; tests measure time on a few, and only lines that fill the buffer show the factor", "anchors": ["commit.go:decodeGpgSig", "commit.go:decodeCommitLine", "commit.go:DecodeCommit", "tag.go:readMergeTag", "tag.go:DecodeTag", "personinfo.go:parsePersonInfo", "tree.go:DecodeTree", "tree.go:DecodeTreeEntry", "blob.go:DecodeBlob", "unmarshal.go:ParseObject"]}
{"id": "C106", "title": "Which of the commits and tags that git makes are reproduced", "statement": "Take whatever git commit, git merge or git commit --amend is given: any names and emails, which git cleans, dates, encoding, extra headers (the tags that were merged, with their whole text, and any others, in any order), a message and a PGP, X.509 or SSH signature, which git puts behind the extra headers. If no header line fills the buffer or ends in CR, the commit is read exactly if it is not signed or signed with PGP with an armour that begins plainly; otherwise the error is that of a bad signature. What is read is what git was given, every line of a merged tag's message with the space before it. Encode writes the same bytes exactly if the merged tags come before the other extra headers and, if the commit is signed, there are no others. So commits without extra headers are always reproduced. What git tag makes is always read, and reproduced exactly if the message is not empty.", "quantifier": "every name, email, date, offset, encoding, list of extra headers, message and signature; every buffer size from 4096", "why_tests_cant": "needs all orders of extra headers and all texts of merged tags; the tests have commits with merge tags and with signatures but none with an unknown header and either", "anchors": ["commit.go:DecodeCommit", "commit.go:decodeCommitLine", "commit.go:decodeGpgSig", "commit.go:encodeCommit", "tag.go:readMergeTag", "tag.go:DecodeTag", "tag.go:encodeTag", "personinfo.go:parsePersonInfo"]}
{"id": "C107", "title": "What depends on the size of int", "statement": "Go's int has 32 or 64 bits. On a platform with 32, ParseObject gives what it gives with 64, for every input, unless the input announces for a blob, a tree or a commit a size that is a number outside of the 32 bits; then it fails with the error for a bad size. This holds for trees and commits too, whose size is read and not used: a small tree that announces 2^31 is read on one platform and refused on the other. Tags do not look at the size. What Encode writes for an object that was read, if shorter than 2^31 bytes, is read in the same way on both.", "quantifier": "every input, with every size of int up to 64 bits", "why_tests_cant": "needs all sizes on two platforms; the tests run on one and announce true sizes", "anchors": ["helper.go:readNullTerminatedNumber", "blob.go:DecodeBlob", "tree.go:DecodeTree", "commit.go:DecodeCommit", "tag.go:DecodeTag", "unmarshal.go:ParseObject"]}
{"id": "C108", "title": "The work of encoding", "statement": "Counting every byte that Encode converts, copies or writes, also when the arrays of fmt and of its buffer are moved to larger ones, writing n bytes takes at least n steps and at most 32 n, if no link of the value has a multihash longer than git's. So for what was decoded from m bytes encoding takes at most 64 m + 5120 steps. The condition on the links is needed: of a link with a longer multihash all is copied and only the last 20 bytes are written, so a tree of 37 bytes can take any number of steps.", "quantifier": "every object that can be encoded, every rule of growth by at least a quarter, such as those of Go's slices and of bytes.Buffer; for decoded ones every input and every buffer size from 58 bytes", "why_tests_cant": "needs all objects; tests measure time on a few and never encode a link that was not decoded", "anchors": ["commit.go:encodeCommit", "tag.go:encodeTag", "tree.go:encodeTree", "tree.go:encodeTreeEntry", "blob.go:encodeBlob", "personinfo.go:GitString", "util.go:cidToSha", "util.go:sha", "marshal.go:Encode"]}
{"id": "C109", "title": "Whether signatures of commits still verify after decoding and encoding", "statement": "git verify-commit takes the header gpgsig out of a commit and checks it against the rest. Take any commit that git makes and signs with PGP, as in C106. Git leaves out other headers that begin with gpgsig, such as gpgsig-sha256. In what Encode writes for the decoded commit git finds the same signature, and as the rest the commit as it was before it was signed, without those, with the merged tags before the other extra headers. So the signature still verifies exactly if the merged tags already were before the others that are signed, also where Encode moves the signature and so changes the bytes and the hash of the commit: in a signed commit with an unknown header.", "quantifier": "every name, email, date, offset, encoding, list of extra headers, message and PGP signature with a plain start; every buffer size from 4096", "why_tests_cant": "needs all orders of extra headers and git's own way of taking a commit apart; the tests compare bytes only, and have no signed commit with an unknown header", "anchors": ["commit.go:DecodeCommit", "commit.go:decodeCommitLine", "commit.go:decodeGpgSig", "commit.go:encodeCommit", "tag.go:readMergeTag"]}
{"id": "C110", "title": "What git reads of an object that a client built", "statement": "A link is written as the last twenty bytes of its multihash, whatever its codec and hash function. Of any commit that Encode writes, with any texts, git reads no tree and no parent but those that its links denote, in order, and all of them if they are CIDs: no name, message or header can bring another in, though Decode takes a line 'parent ...' within a name for a parent. Git has the message exactly if no text makes an empty line among the headers; it finds the author first if its text is one line. fsck accepts the commit, with its persons, exactly if the links denote something, it accepts the text of each person, and no text has a NUL. Of any tag git reads no other object, the type and name exactly if the type is one of four and the name one line; fsck accepts it exactly if the tagger is a person and there is no NUL besides. Git reads a tree as exactly its rows if and only if every mode is an octal number and every name is not empty and without NUL, and fsck accepts it if and only if the rows were given in git's order, each name once: Encode does not sort them.", "quantifier": "every commit, tag and tree that Encode writes, with any bytes in every field and any links; for messages and fsck of commits, messages of merge tags that are empty or end in LF", "why_tests_cant": "needs all texts in all fields, in particular those with line ends; the tests build nothing by hand but decode what git wrote", "anchors": ["commit.go:encodeCommit", "tag.go:encodeTag", "tree.go:encodeTree", "tree.go:encodeTreeEntry", "util.go:cidToSha", "util.go:sha", "personinfo.go:GitString"]}
{"id": "C111", "title": "What becomes of objects of SHA-256 repositories", "statement": "Git can name objects by 32 bytes. Every commit and tag of such a repository is refused at its first line with the error invalid git sha, however it goes on. A tree is not refused: it has no mark of its format, and Decode yields all its names with each hash cut to twenty bytes and the other twelve put before the mode of the next entry, exactly if these have no space but in the last hash, if the last twelve could begin another entry or have no space, and no name is repeated. Encode then writes the body without its last twelve bytes. So links of 32 bytes are silently taken for others.", "quantifier": "every tree whose modes have no space, whose names have no NUL and whose hashes are 32 bytes, under every size field; every commit and tag that begins with a reference of 64 digits; every buffer size from 72", "why_tests_cant": "needs all hashes: whether one has a space at the wrong place depends on its bytes; the tests have only SHA-1 repositories", "anchors": ["tree.go:DecodeTree", "tree.go:DecodeTreeEntry", "tree.go:encodeTree", "commit.go:decodeCommitLine", "tag.go:DecodeTag", "util.go:shaToCid"]}
{"id": "C112", "title": "Which inputs are shown as the same object", "statement": "The hash of an object does not follow from its node. Two streams are read as the same blob exactly if they have the same content under the same number, whatever follows; as the same tree exactly if they have the same whole entries. The size of trees and commits can be any number in range and that of tags any text, with the same result, error or not. So for whatever is read there are inputs of any length that are read as the same. Among what git makes, two tags are read as the same only if they are, and two commits with PGP signatures or none exactly if they are the same once the merged tags are moved before the other extra headers.", "quantifier": "every pair of streams for blobs and trees; every size field and body; every pair of commits and tags that git makes, with lines that fit a buffer of 4096 or more", "why_tests_cant": "needs all pairs of inputs; the tests compare an object with itself", "anchors": ["blob.go:DecodeBlob", "tree.go:DecodeTree", "commit.go:DecodeCommit", "tag.go:DecodeTag", "helper.go:readNullTerminatedNumber", "unmarshal.go:ParseObject"]}
{"id": "C113", "title": "How a client signs a commit", "statement": "Take any commit without signature that Encode writes and in which git finds the message. Let a program sign the body, and set the field signature to the lines between the first and the last line of the PGP armour, each with a space before it. Then what Encode writes is, for git verify-commit, this signature of this body, exactly if no header line begins with gpgsig and the unknown headers do not begin with a space, which would make them part of the signature. Only PGP can be used: whatever bytes the field is set to, git finds a signature whose first line is that of PGP, never one of SSH or X.509.", "quantifier": "every commit value with any bytes in every field and any links; every signature", "why_tests_cant": "needs all commits and git's own way of taking a commit apart; the tests sign nothing", "anchors": ["commit.go:encodeCommit", "commit.go:decodeGpgSig", "ipldsch_types.go:_GpgSig"]}
{"id": "C114", "title": "How a client signs a tag", "statement": "Take any tag with a message that Encode writes, let a program sign what is written behind the header, and append the signature to the message. Then what Encode writes is, for git verify-tag, this signature of this text, exactly if the message ended with a newline; otherwise git finds no signature there. For a tag without a message the text to sign is what is written and one newline more. PGP, X.509 and SSH can all be used, unlike for commits, and git takes the tag apart in no second way.", "quantifier": "every tag value with any bytes in every field and any link; every text that begins like a signature and has no second such line, among them every armour of the three formats", "why_tests_cant": "needs all tags and git's own way of finding the signature; the tests sign nothing", "anchors": ["tag.go:encodeTag"]}
{"id": "C115", "title": "When Encode writes, fails or panics", "statement": "For every node one of the three happens, and which one is known. An object of the package is never an error: a typed one is written, unless a commit has no author or no committer or a link has less than 20 bytes of multihash (in a tree also a link that is no CID); then Encode panics. The representation of a commit always panics, the other representations do what the typed node does. A map whose first key is object, type, tag, tagger or text: the first of object, type, tag and message that is missing or of the wrong kind is the error; after these a short link of the object panics; after that a tagger that is no person is the error. Any other map with entries gives the error that a commit builder gives for it, panics where this panics or where the commit could not be written, and otherwise is written as that commit. An empty map, and every scalar but bytes, is an error; bytes are written; lists panic; a person or tree entry of the package is an error.", "quantifier": "every node: every value of the package in both views, every foreign node to any depth, with any keys, repeated ones too", "why_tests_cant": "needs all nodes and the order of the checks; the tests encode only what was decoded", "anchors": ["marshal.go:Encode", "tag.go:encodeTag", "commit.go:encodeCommit", "tree.go:encodeTree", "blob.go:encodeBlob", "util.go:cidToSha"]}
{"id": "C116", "title": "What a blob has to hold", "statement": "Encode writes the bytes of a blob as they are, and the node holds the header too. So a blob that a client builds is read back from what Encode writes exactly if its bytes are `blob `, the length of the rest in canonical decimal, NUL and the rest; a file put into a blob without this header is never written as the text that git hashes for it. Any other bytes are read as whatever object they spell: every accepted input, also of a tree, commit or tag, is what some blob is read as. What is written for a tree, commit or tag is never read as another type. Of a blob that was read, the content is what follows the first NUL.", "quantifier": "every byte string in a blob; every value of the other types with any bytes in every field; every input, buffer size and end of the stream", "why_tests_cant": "needs all bytes that a client can put into a blob; the tests encode only blobs that were decoded", "anchors": ["blob.go:encodeBlob", "blob.go:DecodeBlob", "marshal.go:Encode", "unmarshal.go:ParseObject"]}
{"id": "C117", "title": "What Decode takes from a reader that is not buffered", "statement": "Decode and ParseObject put a buffer of their own before a reader that is no *bufio.Reader with a buffer as large. When a blob has been read this way, at most one buffer full of what follows it has been taken from the reader, in whatever pieces it delivers. A reader that returns as much as it is asked for, such as a bytes.Reader, has then given exactly a buffer full, 4096 bytes, if the blob is not longer, wherever it ends. So the next call on the same reader does not begin at the next object but 4096 bytes behind the first: small objects that stand one after the other are lost, and at the end of the input the error is io.ErrUnexpectedEOF. Only with a *bufio.Reader can they be read one after the other (C87).", "quantifier": "every blob, everything that may follow it, every buffer size, every reader that delivers its bytes in any pieces; for the exact part every reader that gives what is asked for", "why_tests_cant": "needs all lengths and all readers; the tests read one object from each reader", "anchors": ["unmarshal.go:Decode", "unmarshal.go:ParseObject", "blob.go:DecodeBlob"]}
{"id": "C118", "title": "A merged tag and its tag object", "statement": "A tag that was merged is an object of its own, and git copies its text into the merge commit, with a space before every line. In the node of the decoded commit the message keeps these spaces. So for every merge commit that git makes, as in C106, a merged tag taken from the commit is never written as the tag object. With the first byte of every line of the message taken off it is, exactly if the message of the tag ends with a newline; if not, it is the tag with a newline more, and the commit is the same for both. The other way, a commit whose merged tags are decoded tag objects with a space put before every line of their messages is written byte for byte as git writes the merge, where C106 says that it is reproduced. For every commit that is decoded, whoever made it, taking the spaces off and putting them back gives the merged tag as it was.", "quantifier": "every merge commit as git makes it, any number of merged tags among other extra headers, any messages and persons; for the last part every input", "why_tests_cant": "needs all tags and commits; the tests have one commit with merged tags and do not compare these with the tag objects", "anchors": ["tag.go:readMergeTag", "tag.go:encodeTag", "tag.go:DecodeTag", "commit.go:encodeCommit", "commit.go:decodeCommitLine"]}
{"id": "C119", "title": "Whether the signatures of merged tags still verify", "statement": "Git keeps the signature of a tag that was merged in the header mergetag of the merge commit and verifies it from there. Take any commit that git makes, as in C106, with merged tags among other extra headers, in any order. When it is decoded and encoded, git reads the same headers with the same lines, only their order may be another, and it finds the same texts of merged tags in the same order, namely those of the tags that were merged. So their signatures verify as before, also where the bytes and the hash of the commit, and with them the signature of the commit itself, are no longer the same.", "quantifier": "every commit as git makes it, any number and order of merged tags and other extra headers, signed or not", "why_tests_cant": "needs all commits with extra headers; the tests do not look at what git reads", "anchors": ["tag.go:readMergeTag", "commit.go:encodeCommit", "commit.go:decodeCommitLine"]}
{"id": "C120", "title": "The forms that the README shows", "statement": "The README shows each type as JSON that real data would look like. Given to Encode as plain data, the commit there makes it panic, and with its keys in any order and any values no commit is ever written, nor built by a commit builder: mergetag and other are missing, which is the error a builder given the README's commit call by call returns. The tag there is refused by Encode with an invalid key, as its first key is message, and by a tag builder for the missing time zone; in any order and with any values it is neither written nor built. The tree there is always an error of Encode, whatever the names, also those of fields; but a tree builder given it call by call builds this tree, which is then written if all its links are CIDs with 20 bytes. Bytes are written as they are, and read as this blob if they are a content with its header, as shown. No commit or tagger of the package has in either view the keys shown.", "quantifier": "every value in the forms of the README, every order of the keys, every name and number of entries in the tree, every way of naming entries in the calls", "why_tests_cant": "needs all values and orders of keys; the tests encode typed nodes and what was decoded", "anchors": ["marshal.go:Encode", "commit.go:encodeCommit", "tag.go:encodeTag", "ipldsch_satisfaction.go:_Commit__ReprAssembler.AssignNode", "README.md"]}
{"id": "C121", "title": "Several objects through one builder", "statement": "Decode can be called again and again with one builder, without Reset. Take a builder of commits or of tags, and any streams. A stream that holds no object, or a blob, is an error and leaves the builder as it was. An object of another type is never taken: it is an error or a panic. Until an object of the builder's type comes, Build panics; the first one is taken and Build gives exactly this object, whatever failed before; the next one panics. Build goes on giving it after any further Decode that does not panic, as long as no tree among the streams begins with an entry named after a field of the type. With such a tree it need not: after a tree whose first entry is named author, a commit, and a tag, Build gives a commit without the author's data. The first tag given to a builder of commits (or commit to one of tags) is the error for an invalid key, if no tree came before; after it every tag or tree (or commit or tree) panics.", "quantifier": "every sequence of streams, of any length and with any content; both views of the builder; every way that Go grows arrays", "why_tests_cant": "needs all sequences of calls on one builder; the tests use a new builder for every object", "anchors": ["unmarshal.go:Decode", "unmarshal.go:ParseObject", "ipldsch_satisfaction.go:_Commit__Assembler.AssignNode", "ipldsch_satisfaction.go:_Tag__Assembler.AssignNode", "ipldsch_satisfaction.go:_Commit__Assembler.valueFinishTidy"]}
{"id": "C122", "title": "Several objects through one tree builder", "statement": "Decode called again and again with one builder of trees, without Reset. A stream that holds no object, or a blob, is an error and leaves the builder as it was, at any time. Of the others: a commit or tag given to a new builder is not refused, it panics. The first tree is taken and Build gives exactly this tree; another tree panics. A commit or tag after the tree is an error, but it changes the tree that was built: an entry named `tree` (or `object`, for a tag), without mode and hash, is added to it, which Build, and so a node built before, then shows. After that every tree, commit and tag panics. There are no other sequences of calls without a panic.", "quantifier": "every sequence of streams, of any length and with any content; both views of the builder; every way that Go grows arrays, and every capacity of the decoded table", "why_tests_cant": "needs all sequences of calls on one builder; the tests use a new builder for every object", "anchors": ["unmarshal.go:Decode", "tree.go:DecodeTree", "ipldsch_satisfaction.go:_Tree__Assembler.AssignNode", "ipldsch_satisfaction.go:_Tree__Assembler.AssembleKey", "ipldsch_satisfaction.go:_Tree__Assembler.AssembleValue"]}
{"id": "C123", "title": "Which files are given back", "statement": "A file is given back byte for byte by decoding and encoding exactly if its size is the length of its body in plain digits and the body is that of any blob, of tree entries with distinct names, or of a tag or commit that fits the format and the buffer as in C62. So in a commit or tag that is given back no header line is longer than the reader's buffer or ends in CR, and a line that just fills the buffer is the tagger line of a tag or a type, tag or tagger line of a merged tag. A commit that git makes, with lines of any length, is given back exactly if it is unsigned or signed with PGP with a plain start, the merged tags are before the other extra headers, of which a signed commit has none, no header line ends in CR, and every header line is shorter than the buffer, but for the header lines of merged tags, which may just fill it. A tag that git makes is given back exactly if its message is not empty and its header lines are shorter than the buffer and do not end in CR.", "quantifier": "every file; every commit and tag that git makes; every buffer size from 4096", "why_tests_cant": "needs all files; the tests encode what they decoded for the objects of one repository", "anchors": ["unmarshal.go:ParseObject", "marshal.go:Encode", "commit.go:DecodeCommit", "tag.go:DecodeTag", "tree.go:DecodeTree", "blob.go:DecodeBlob"]}
{"id": "C124", "title": "Whether signatures of tags still verify after decoding and encoding", "statement": "git verify-tag takes the signature from the end of a tag and checks it against everything before it. Take any file with a tag in which git finds a signature, whoever made it. In what Encode writes for the decoded tag git finds the same signature of the same text exactly if the text of the tag is the plain one of a value that fits the format and the buffer, whatever its size is said to be; if that is right, exactly if the file is given back byte for byte (C123). An unknown header, headers in another order or a header line longer than the buffer is enough to break it. As long as the signature stands in the message of the node it is written too, so git finds it there, but of another text if any byte has changed. A tag that git makes and signs, with PGP, X.509 or SSH and header lines of any length, still verifies exactly if its header lines are shorter than the buffer and none ends in CR.", "quantifier": "every file with a signed tag, every signature; every tag as git makes it; every buffer size from 4096", "why_tests_cant": "needs all tags and all signatures; the tests verify none", "anchors": ["tag.go:DecodeTag", "tag.go:encodeTag", "unmarshal.go:ParseObject", "marshal.go:Encode"]}
{"id": "C125", "title": "Reading a tree entry by entry", "statement": "A client that calls DecodeTreeEntry on one reader until it returns an error gets exactly the whole entries that stand at the start of the text, in their order, with repeated names and with any mode, each time leaving what is behind the entry unread; then an error that depends only on where the rest ends. A rest without a space, a name without its NUL, and a mode and name with no byte of a hash give the reader's own error, so EOF even inside an entry; a part of a hash gives ErrUnexpectedEOF instead of EOF. The calls always come to this end, after at most one entry for 22 bytes, without a panic. ParseObject of the tree follows from these calls: a repeated name is ErrRepeatedMapKey, also where another error comes later; otherwise EOF ends the tree, which then holds just these entries, and any other error is returned.", "quantifier": "every text, every error at its end, every number of calls; every io.Reader that delivers the text, in reads of any sizes and with the error behind or together with the last bytes", "why_tests_cant": "needs all texts and all places where they end; the tests read whole trees", "anchors": ["tree.go:DecodeTreeEntry", "tree.go:DecodeTree", "unmarshal.go:ParseObject"]}
{"id": "C126", "title": "An object under another type word", "statement": "The first word of a file is all that tells the decoder what it holds; the text behind it hardly ever contradicts. A text in which no header line begins with a word of a tag is read as a tag without error, whatever it is: one with no object, type, name and tagger, whose message is what stands behind the first empty line; Encode writes this tag without error, but ParseObject refuses what it writes. A text in which no header line begins with a word of a commit, under a size that is a number, is read as a commit with no tree, author and committer, and all its lines as other headers; Encode panics on it. A text without NUL, so every commit and tag without one, is read as the empty tree, without error. In particular every tag with only the four headers is also a commit with the same message, and a commit, signed or with merged tags too if these have no empty line, in which no header line begins with a word of a tag is also a tag with the same message.", "quantifier": "every text, every size field, every reader buffer of at least two bytes (8 for what Encode wrote)", "why_tests_cant": "needs all texts under all type words; the tests read objects under their own", "anchors": ["unmarshal.go:ParseObject", "commit.go:DecodeCommit", "tag.go:DecodeTag", "tree.go:DecodeTree", "marshal.go:Encode"]}
{"id": "C127", "title": "What stands behind an object becomes part of it", "statement": "Put any bytes behind a file that is read without error. If it is a blob, the result is the same blob. If it is a tag or commit with a message, or with just the empty line before one, the result is the same tag or commit with these bytes, all of them and unchanged, at the end of its message, whatever size was announced; nothing before the message changes, and no error can come of it. If it is a tree of whole entries, the bytes are read as further entries, exactly those that a client would get from them with DecodeTreeEntry (C125): if these bring no repeated name the result is the tree with both, or an error if the bytes end inside a hash; a repeated name is an error; bytes that hold no whole entry and do not end inside a hash, such as any without a NUL, are lost without notice. So of several objects in one stream the second is found in the message of the first, or among its entries.", "quantifier": "every file that is read, all bytes behind it, every buffer of at least two bytes", "why_tests_cant": "needs all files and all continuations; the tests read one object from each stream", "anchors": ["unmarshal.go:ParseObject", "commit.go:DecodeCommit", "tag.go:DecodeTag", "tree.go:DecodeTree", "blob.go:DecodeBlob"]}
