#!/usr/bin/env python3
"""Writes /verif/properties.jsonl from the list below (one place to edit)."""
import json, os
P = []
def p(title, statement, quantifier, why, anchors):
    P.append(dict(id="C%02d" % (len(P)+1), title=title, statement=statement,
                  quantifier=quantifier, why_tests_cant=why, anchors=anchors))

p("Blob round trip",
  "Decoding the git serialization `blob <size>\\0<content>` of any content yields a Blob node whose bytes are exactly that serialization, and encoding that node writes exactly the same bytes back.",
  "every content byte string, every trailing byte string after the object, every buffered-reader size",
  "content has unbounded size and arbitrary bytes (NULs, newlines, text that looks like headers); a test samples a few blobs",
  ["blob.go:DecodeBlob", "blob.go:encodeBlob", "unmarshal.go:Decode", "marshal.go:Encode"])
p("Decoded blobs are canonical",
  "Whatever byte stream is accepted as a blob, the resulting node's bytes are `blob ` ++ decimal size ++ NUL ++ exactly size bytes, so decoding what a decoded blob encodes to gives the same blob again; redundant size spellings (`+5`, `005`) and trailing bytes do not survive.",
  "every byte stream that decodes as a blob",
  "the accepted inputs are infinitely many spellings of each blob",
  ["blob.go:DecodeBlob", "helper.go:readNullTerminatedNumber"])
p("Short blobs are rejected",
  "A blob whose stream ends before the announced number of bytes fails to decode: io.EOF if the whole body is missing, io.ErrUnexpectedEOF if part of it is; a negative size is rejected. A truncated blob is never returned as a shorter blob.",
  "every announced size, every shorter body",
  "truncation can happen at any byte of any blob",
  ["blob.go:DecodeBlob"])
p("Tree round trip",
  "For every sequence of entries (mode without space, name without NUL, 20-byte hash) with pairwise distinct names, encoding the tree and decoding the result gives the same entries in the same order.",
  "every list of entries, every reader buffer size",
  "number of entries, names, modes and hashes are unbounded; hashes contain every byte value including the delimiters",
  ["tree.go:DecodeTree", "tree.go:DecodeTreeEntry", "tree.go:encodeTree", "tree.go:encodeTreeEntry"])
p("Tree re-encoding is byte identical",
  "For every well-formed git tree object (header with exact decimal size, entries with distinct names), Encode of the decoded node is byte-for-byte the input, so the git hash is preserved.",
  "every well-formed tree serialization",
  "hash stability must hold for every tree in every repository",
  ["tree.go:DecodeTree", "tree.go:encodeTree"])
p("Duplicate tree names are rejected",
  "A tree stream containing two complete entries with the same name never decodes successfully.",
  "every tree body, any positions of the two entries",
  "position and content of duplicates are unbounded",
  ["tree.go:DecodeTree", "ipldsch_satisfaction.go:_Tree__ReprAssembler.AssembleEntry"])
p("Truncated trees are rejected",
  "A tree stream that stops in the middle of an entry fails to decode.",
  "every tree and every truncation point",
  "truncation can happen at any byte of any tree",
  ["tree.go:DecodeTree", "tree.go:DecodeTreeEntry"])
p("Tree lookup agrees with iteration",
  "In every decoded tree, looking up a name returns exactly the entry that iteration reports for that name, and fails for names that iteration does not report; Length is the number of iterated entries.",
  "every decoded tree and every name",
  "the map and the ordered table are updated separately for every entry of unboundedly large trees",
  ["ipldsch_satisfaction.go:_Tree.LookupByString", "ipldsch_satisfaction.go:_Tree__MapItr.Next", "ipldsch_satisfaction.go:_Tree__ReprAssembler"])
p("Tag round trip",
  "For every tag whose fields fit the line format (git link target, single-line type and tag name, well-formed tagger, non-empty message), decoding its encoding gives back the same tag.",
  "every such tag, with an arbitrary (binary, multi-line) message",
  "messages and names are arbitrary byte strings",
  ["tag.go:DecodeTag", "tag.go:encodeTag"])
p("Tag re-encoding is byte identical",
  "For every well-formed git tag object, Encode of the decoded node is byte-for-byte the input.",
  "every well-formed tag serialization (object, type, tag, optional tagger, optional message)",
  "hash stability must hold for every tag in every repository",
  ["tag.go:DecodeTag", "tag.go:encodeTag"])
p("Commit round trip",
  "For every commit whose fields fit the line format, decoding its encoding gives back the same commit: tree, parents, author, committer, encoding, merge tags, signature, other headers and message.",
  "every such commit: any number of parents, merge tags and other headers, any message",
  "nested, repeated and free-form parts make the domain unbounded",
  ["commit.go:DecodeCommit", "commit.go:decodeCommitLine", "commit.go:encodeCommit", "tag.go:readMergeTag"])
p("Commit re-encoding is byte identical",
  "For every well-formed git commit object, Encode of the decoded node is byte-for-byte the input.",
  "every well-formed commit serialization",
  "hash stability must hold for every commit in every repository",
  ["commit.go:DecodeCommit", "commit.go:encodeCommit"])
p("Messages are preserved verbatim",
  "Everything after the first blank line of a commit or tag, byte for byte, is the message of the decoded node: no newline normalisation, no truncation at NUL, no length limit.",
  "every message byte string after every accepted header block",
  "messages are arbitrary byte strings of any length",
  ["commit.go:decodeCommitLine", "tag.go:DecodeTag"])
p("Parents keep their order",
  "The parents of a decoded commit are exactly the `parent` header hashes, in stream order, with repetitions, for any number of parents.",
  "every number and order of parent lines",
  "octopus merges have any number of parents",
  ["commit.go:decodeCommitLine"])
p("Announced size is the body length",
  "Whenever Encode succeeds on a tree, commit or tag node, the output is `<type> <n>\\0` followed by exactly n bytes, n in canonical decimal.",
  "every node that Encode accepts as tree, commit or tag",
  "output sizes are unbounded",
  ["tree.go:encodeTree", "commit.go:encodeCommit", "tag.go:encodeTag"])
p("Every decoded link names a git object",
  "Every link in a decoded tree, commit or tag (tree, parents, tag target, merge tag targets, entry hashes) is a CIDv1 with codec git-raw and a 20-byte sha1 multihash whose digest is the hash that stood in the stream; only the tree of a commit without tree header and the target of a tag without object header are missing (nil).",
  "every stream that decodes",
  "any link of unboundedly many could be malformed",
  ["util.go:shaToCid", "commit.go:decodeCommitLine", "tag.go:DecodeTag", "tag.go:readMergeTag", "tree.go:DecodeTreeEntry"])
p("Malformed references are rejected",
  "A commit or tag header whose object reference is not exactly 40 hexadecimal digits makes Decode fail; it is never stored as a shorter or longer hash.",
  "every reference string",
  "all wrong lengths and all non-hex bytes",
  ["util.go:shaToCid", "commit.go:decodeCommitLine", "tag.go:DecodeTag", "tag.go:readMergeTag"])
p("Hash to link and back",
  "Turning a 20-byte git hash into a link and back yields the same hash, distinct hashes give distinct links, and every other length is rejected.",
  "every byte string",
  "2^160 hashes and infinitely many wrong lengths",
  ["util.go:shaToCid", "util.go:cidToSha"])
p("Person line round trip",
  "Formatting a person (name, email, date, timezone) and parsing the line gives back the same person, exactly for the persons the format can express.",
  "every person and every line prefix word",
  "names and emails are arbitrary byte strings with spaces and angle brackets",
  ["personinfo.go:parsePersonInfo", "personinfo.go:GitString"])
p("Person lines are preserved",
  "For every line `<word> <name> <<email>> <date> <tz>` that git writes, formatting the parsed person reproduces the line.",
  "every name and email, including empty and multi-word ones",
  "names and emails are arbitrary byte strings",
  ["personinfo.go:parsePersonInfo", "personinfo.go:GitString"])
p("Decoding never panics",
  "Decode and ParseObject return a node or an error on every input; they never panic (no index or slice out of range).",
  "every byte stream, every terminal read error, every buffer size",
  "malformed inputs are unbounded; past releases panicked on double spaces in an email",
  ["unmarshal.go:Decode", "unmarshal.go:ParseObject", "personinfo.go:parsePersonInfo", "commit.go:decodeCommitLine", "tree.go:DecodeTreeEntry"])
p("Decoding terminates",
  "Decode returns after reading finitely much: every pass through its loops consumes input, so the number of steps is bounded by the length of the input.",
  "every finite byte stream",
  "non-termination cannot be observed by a finite test",
  ["commit.go:DecodeCommit", "tag.go:DecodeTag", "tag.go:readMergeTag", "commit.go:decodeGpgSig", "tree.go:DecodeTree"])
p("Decoding does not depend on how the reader delivers bytes",
  "The node or error produced depends only on the bytes of the stream, not on how the io.Reader splits them over Read calls.",
  "every byte stream and every split of it into reads, including empty reads and EOF returned together with data",
  "the number of schedules is exponential in the input length",
  ["unmarshal.go:Decode", "commit.go:DecodeCommit", "tag.go:DecodeTag", "tree.go:DecodeTree", "blob.go:DecodeBlob"])
p("Read failures are reported",
  "If the underlying reader fails with an error other than EOF, decoding a tree, commit or tag fails; decoding a blob fails unless the whole body had already arrived.",
  "every failure point in every stream",
  "the failure can happen at any byte",
  ["unmarshal.go:Decode", "commit.go:DecodeCommit", "tree.go:DecodeTree", "tag.go:DecodeTag", "blob.go:DecodeBlob"])
p("ParseObject agrees with Decode",
  "ParseObject, ParseObjectFromBuffer and Decode into a builder of the matching type produce the same node or the same error for every stream.",
  "every byte stream",
  "the two dispatchers are separate copies of the same switch",
  ["unmarshal.go:Decode", "unmarshal.go:ParseObject", "helper.go:ParseObjectFromBuffer"])
p("DecodeBlock accepts exactly git CIDs",
  "DecodeBlock parses the block data if and only if the block's CID has codec git-raw and a 20-byte sha1 multihash; otherwise it fails without looking at the data.",
  "every CID prefix and block content",
  "codec, hash function and length range over all integers",
  ["helper.go:DecodeBlock"])
p("Unknown object types are rejected",
  "A stream that does not begin with one of the four type words followed by a space is rejected; a stream without any space is reported as unexpected EOF.",
  "every byte stream",
  "infinitely many wrong prefixes",
  ["unmarshal.go:Decode", "unmarshal.go:ParseObject"])
p("Encodings are unambiguous",
  "Two well-formed objects with the same encoding are equal, and the type of an encoded object is determined by its bytes; so different objects never share a git hash input.",
  "every pair of well-formed objects of any types",
  "pairs of unbounded objects",
  ["marshal.go:Encode", "unmarshal.go:Decode"])
p("A failing writer never makes Encode succeed",
  "Encode returns nil only if the writer accepted the complete encoding; whatever happens, the bytes the writer accepted are a prefix of the encoding.",
  "every node and every writer that accepts some bytes and then fails",
  "the writer can fail at any byte",
  ["blob.go:encodeBlob", "tree.go:encodeTree", "commit.go:encodeCommit", "tag.go:encodeTag"])
p("Re-encoding a decoded object never panics",
  "Encode of any node obtained from Decode returns bytes or an error; it does not panic.",
  "every stream that decodes",
  "decoded nodes range over all accepted inputs",
  ["commit.go:encodeCommit", "util.go:cidToSha", "personinfo.go:GitString"])
p("Representation view encodes like the typed view",
  "Encode of node.Representation() writes the same bytes as Encode of the node, for blobs, trees, tags and commits.",
  "every typed node",
  "nodes are unbounded",
  ["marshal.go:Encode", "commit.go:encodeCommit", "ipldsch_satisfaction.go:_Commit__ReprAssembler.AssignNode", "ipldsch_satisfaction.go:_PersonInfo__ReprAssembler.AssembleValue"])
p("Signatures are preserved verbatim",
  "The lines between the `gpgsig -----BEGIN PGP SIGNATURE-----` and ` -----END PGP SIGNATURE-----` lines of a commit are the signature of the decoded commit, byte for byte, and are written back unchanged.",
  "every signature block of any number of lines",
  "signatures have any number of lines",
  ["commit.go:decodeGpgSig", "commit.go:encodeCommit"])
p("Unknown commit headers are preserved",
  "Header lines of a commit that are not understood are kept, in order, and written back.",
  "every sequence of unknown header lines",
  "number and content of lines are unbounded",
  ["commit.go:decodeCommitLine", "commit.go:encodeCommit"])
p("Merge tags are preserved",
  "Every embedded merge tag of a commit (object, type, tag, tagger, message incl. signature) is decoded in order and written back unchanged; the header after it is not swallowed.",
  "every number of merge tags with any messages",
  "number and content of merge tags are unbounded",
  ["tag.go:readMergeTag", "commit.go:decodeCommitLine", "commit.go:encodeCommit"])
p("Long header lines survive",
  "Decoding does not depend on the length of a header line: a header line longer than the reader's buffer is treated like any other.",
  "every header line length",
  "the failing lengths depend on the 4096-byte buffer",
  ["commit.go:DecodeCommit", "tag.go:DecodeTag", "tag.go:readMergeTag", "commit.go:decodeGpgSig"])
p("Truncated commits and tags are rejected",
  "A commit or tag stream that stops before the announced size fails to decode.",
  "every commit or tag and every truncation point",
  "truncation can happen at any byte",
  ["commit.go:DecodeCommit", "tag.go:DecodeTag", "helper.go:readNullTerminatedNumber"])
p("Encode dispatches on node shape",
  "Encode of a node that is not one of the package's own types picks the object type from the node's kind and first map key, and returns an error or the encoding, never a panic.",
  "every data-model node",
  "nodes are arbitrary recursive values",
  ["marshal.go:Encode", "tag.go:encodeTag", "commit.go:encodeCommit", "tree.go:encodeTree"])
p("Builders enforce the schema",
  "Assigning any data-model map to a builder succeeds only if every required field is present exactly once with a value of the right kind and no unknown field occurs, and then the built node has exactly those field values.",
  "every data-model node, for TreeEntry, PersonInfo, Tag and Commit",
  "maps have any number of entries in any order",
  ["ipldsch_satisfaction.go:_PersonInfo__ReprAssembler", "ipldsch_satisfaction.go:_Tag__ReprAssembler", "ipldsch_satisfaction.go:_Commit__ReprAssembler", "ipldsch_satisfaction.go:_TreeEntry__ReprAssembler"])
p("Trees never hold duplicate names",
  "However a Tree is built through the assembler API, it never contains two entries with the same name.",
  "every sequence of assembler calls",
  "call sequences are unbounded",
  ["ipldsch_satisfaction.go:_Tree__Assembler.AssembleEntry", "ipldsch_satisfaction.go:_Tree__Assembler.AssembleKey", "ipldsch_satisfaction.go:_Tree__Assembler.keyFinishTidy"])
p("Tree map pointers stay valid while the table grows",
  "Although the lookup map stores pointers into a table that is reallocated as it grows, a lookup in a finished tree always returns the value that was assigned last for that key.",
  "every sequence of entries and every growth policy of append",
  "aliasing depends on when the runtime reallocates",
  ["ipldsch_satisfaction.go:_Tree__Assembler.AssembleEntry", "ipldsch_satisfaction.go:_Tree__Assembler.valueFinishTidy"])
p("Node iteration matches lookup and length",
  "For PersonInfo, Tag, TreeEntry and Commit nodes, in both the typed and the representation view, iteration yields the schema fields in order without repetition, Length is the number of entries (absent optional fields are reported as Absent in the typed view and skipped in the representation view) and each iterated value is what LookupByString returns for its key.",
  "every node of these types",
  "nodes are unbounded; every combination of absent fields",
  ["ipldsch_satisfaction.go:_Commit__MapItr", "ipldsch_satisfaction.go:_Commit__ReprMapItr", "ipldsch_satisfaction.go:_Commit.LookupByString"])
p("Size header is range checked",
  "The decimal size of blob, tree and commit headers is accepted exactly when it is an optionally signed non-empty digit string whose value fits a 64-bit signed integer, and its value is read correctly.",
  "every header byte string",
  "digit strings of any length; overflow boundaries",
  ["helper.go:readNullTerminatedNumber"])
if __name__ == "__main__":
    extra = os.path.join(os.path.dirname(__file__), "props_extra.py")
    if os.path.exists(extra):
        exec(open(extra).read())
    with open("/verif/properties.jsonl", "w") as f:
        for x in P:
            f.write(json.dumps(x) + "\n")
    print(len(P))
