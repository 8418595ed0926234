# Formal model of go-ipld-git in Lean 4

The code under study is the Go package in `/repo` (decoder, encoder and generated
IPLD node types for git blobs, trees, commits and tags). It is not built or run
here; the model is a reading of the source, definition by definition, with the
file and lines cited on each definition.

## Layout

* `lean/Verif/Basic.lean` – bytes, byte-string literals, Go results.
* `lean/Verif/Model/*` – the model, one file per source area. Cites `/repo`.
* `lean/Verif/Spec/*` – small independent specifications (what a well-formed git
  object is, what a line is, ...). They do not mention the model's helpers.
* `lean/Verif/Proofs/*` – helper lemmas.
* `lean/Verif/Props/*` – property theorems, one section per property, each with
  an `example` that a non-trivial case meets its hypotheses.
* `properties.jsonl`, `MANIFEST.json` – English claims and the theorems for them.
* `seeded/LOG.jsonl` – mutation tests of the model.

## Modelling decisions

* A Go `[]byte` or `string` is `List UInt8`. Go `int` is 64-bit (the size header
  is range-checked against int64); other integers are unbounded, and no other
  arithmetic in the code can overflow for streams that fit in memory.
* A Go call returns `ok v`, `err e` or `panic`. Slicing and indexing in the
  modelled code go through checked operations that return `panic` when out of
  range, nil dereferences are explicit `panic`s, so "does not panic" is a real
  statement and not an artefact of totalised functions.
* Errors are values: `EOF`, `ErrUnexpectedEOF`, other errors by origin. Error
  texts are not modelled.
* Loops are recursion with a fuel argument derived from the number of bytes
  left; running out of fuel is a distinct error which is proved unreachable.
  That proof is the termination property.
* Readers: the decoder is written against an interface (`Reader`) with
  the operations of `bufio.Reader` the code uses. Two instances are given: an
  abstract one (remaining bytes, buffer size and final error) and a concrete one
  (buffer, pending error, underlying source that splits its data arbitrarily).
  The theorems are proved on the first and carried to the second by a simulation.
* Slices returned by `ReadLine` alias the reader's buffer. Most of the model has
  lines as values; `Alias` models the decoders with slices of a buffer that later
  reads overwrite, and C55 shows that this makes no difference.

## Model files and where they simplify

| file | source | simplifications |
|------|--------|-----------------|
| `Types`, `Cid`, `Hex`, `Num`, `Person` | `util.go`, `personinfo.go`, `helper.go`, `ipldsch_types.go` | `Link` is nil, a `cidlink.Link` or another link type; a CID is version, codec and multihash bytes |
| `Reader` | `bufio`, `io` | abstract reader: bytes left, final error, buffer size |
| `Bufio`, `Script` | `bufio` | concrete buffer over an arbitrary source of `Read` results; `fill` gives up with `io.ErrNoProgress` after 100 empty reads, other loops over a source (`io.ReadAll`, `io.ReadFull`) are bounded by what the source has left |
| `Alias` | the decoders again, with lines as slices; `bufio` with its memory | `ReadSlice` searches the whole of the unread bytes again after each `fill` |
| `Sharing` | list, tree, person and commit builders in one memory; `AssignNode` of a node of the same type copies references | of a commit only the two people; the element and value assemblers allow more orders of calls than the code |
| `Decode` | `blob.go`, `tree.go`, `commit.go`, `tag.go`, `unmarshal.go` | unknown tag lines go to stdout and are dropped |
| `Rest` | `DecodeBlob`, `ParseObject` again, with the reader they leave | that of the decoders which read up to EOF is not kept |
| `Block` | `helper.go:DecodeBlock` | CID given as its bytes or its fields |
| `Encode` | the encoders on the package's own nodes | bytes only |
| `Writer` | `io.Writer`, `bytes.Buffer.WriteTo`, `fmt.Fprintf` | a writer is an arbitrary state machine |
| `Node` | `ipld.Node` | package nodes, their representation views, `basicnode` values; only the methods the code calls |
| `Iter` | generated map and list iterators | state machines with the code's index and end marks |
| `Assemble` | generated struct, list and scalar assemblers | one template per shape, instantiated per type; a child assembler's `AssignNode` is a function of the node and the value behind its pointer, since children are handed out in their initial state |
| `EncodeNode` | `marshal.go` and the encoders on arbitrary nodes | |
| `TreeHeap` | `_Tree__Assembler` with its table, map and pointers | kept handles (`TreeHandles` has them); what a failing value has written; the table that `AssignNode` of a `*_Tree` shares with its source (`TreeForeign` has it) |
| `TreeNode` | `_Tree` lookup | |
| `Builders` | builders of all 14 prototypes as targets of `Decode` | fresh builders |
| `Calls` | builders of scalars, lists and structs driven call by call | a value in progress is written to its place when the parent looks (shown harmless by C74); foreign nodes go through `Assemble`; every size hint can be allocated |
| `Handles` | the assemblers of `Calls` as objects in memory: each contains those of its parts for good, with pointers to where it writes and to its mark; values with slices, pointers and optional fields | as for `Calls`; the room `append` makes is a parameter; nodes given whole share no memory with others (`Sharing` has that) |
| `Foreign` | `AssignNode` with any node on any handle of `Handles` | iterators return no errors; keys are strings; assemblers that `AssignNode` uses on its way count as given to the client, which allows the client more |
| `Reset` | `Reset` of the builders of `Handles`, and calls and `AssignNode` on assemblers that have no mark since | the builder of blobs is left out (`Blobs` has it) |
| `TreeForeign` | `AssignNode` with any node on any handle of `TreeHandles`, with the table and map of a given tree shared | as for `Foreign` and `TreeHandles`; a given tree has a map and shares no memory with the builder before |
| `TreeReset` | `Reset` of tree builders, and calls and `AssignNode` on the map assembler and the entry assembler kept from before | as for `TreeForeign` |
| `TreeCalls` | the tree assembler of `TreeHeap` with the tree entry assembler of `Calls` as its value assembler | as for `TreeHeap` and `Calls`; value handles kept past their entry are in `TreeHandles` |
| `Details` | what the errors of the assemblers carry: type names, keys, missing fields, on `Calls` and `TreeCalls` | of `ErrWrongKind` only the type name; the rest of it is filled in by the `mixins` dependency |
| `Blobs` | blob nodes and builders with the arrays of their bytes, and a client that holds slices | `Maybe_Null` does not occur in a builder; a foreign node is the slice it returns |
| `DeepEqual` | `Length` of all nodes; `ipld.DeepEqual` of go-ipld-prime | floats are numbers (no NaN); nil nodes are left out |
| `Basicnode` | the builders of `basicnode` as targets of `Decode` | not code of /repo; absent values in copied maps are a parameter |
| `Depth` | the decoder of commits with room for `d` frames of `decodeCommitLine` | only these frames are counted, not their size |
| `Zlib` | `ParseCompressedObject`, with the zlib reader's check of the checksum | decompression is a parameter, any `io.Reader`; `zlib.NewReader` either fails or gives a reader |
| `Select` | go-ipld-prime `traversal.SelectLinks`, as documented | recursion is bounded by fuel; results are those from some depth on |
| `Reserve` | `DecodeBlob` with its `bytes.Buffer` and the capacity of that | the panic of a buffer whose size overflows an `int`; the runtime rounds sizes in any way between once and twice |
| `TreeHandles` | the tree assembler with its table, map, key and entry assemblers as objects in memory, built on `Handles` | as for `Handles`; `AssignNode` only on the entry assembler and its parts (`TreeForeign` has the rest); the size hint of `BeginMap` is one parameter |
| `Typed` | `FieldX`, `MaybeX`, `Lookup`, `LookupMaybe`, `Iterator` | pointers are options of values, so writes through them are not seen; an optional field of a commit is there or absent |
| `Stdout` | the decoders again, with what they print | printing succeeds |
| `Kinds` | `Kind`, `Length`, iterators, `AsX` and refused lookups of all node types, scalar prototypes | of `ErrWrongKind` the set of appropriate kinds is left out |
| `Lookup` | `LookupByIndex`, `LookupByNode`, `LookupBySegment`, list iterators | path segments as in go-ipld-prime: a text or a non-negative number; keys are nodes of the package or of `basicnode` |
| `Faces` | which methods each assembler refuses and with what names, `Prototype`, `KeyPrototype`, `ValuePrototype` | of `ErrWrongKind` the set of appropriate kinds is left out; `Type()` is always nil and left out; `_ErrorThunkAssembler` is never used by the package and left out |
| `Graph` | `init.go`: the codec in a link system; `LinkSystem.Load`, `LinkSystem.Store` and path traversal of go-ipld-prime | storage and hash are parameters; every block is read by `Decode` from a fresh reader |
| `Transform` | `traversal.FocusedTransform` of go-ipld-prime on the assemblers of the package | `createParents` is false; paths end at links and have no empty segments; its errors are not told apart |
| `Work` | the decoders of `Decode` and `Person` with a count of the bytes read, converted and copied | library functions count as much as they get and return; what `bufio.Reader` moves within its buffer and the texts of errors are not counted |
| `Word` | the decoders with the range of `int` as a parameter | lengths of values in memory are natural numbers |
| `EncWork` | the encoders with a count of the bytes converted, copied and written; `fmt` and `bytes.Buffer` with capacities | constant format strings and the copy of a struct are not counted |

## Trusted base

* Lean's kernel (4.33.0). Axioms used: at most `propext`, `Classical.choice` and
  `Quot.sound`; no axioms of our own, no `sorry`, no `native_decide`/`bv_decide`.
  `AXIOMS.md` lists them for each theorem.
* The reading of `/repo` recorded in `Verif/Model`.
* The reading, from memory of their documented behaviour, of these library
  functions: `bufio.Reader`'s `ReadString`, `ReadLine`, `Read`; `io.ReadAll`,
  `io.ReadFull`, `io.Copy` with `io.LimitReader`, the growth of `bytes.Buffer`; `strconv.Atoi`;
  `hex.DecodeString`/`EncodeToString`; `bytes.Split`/`HasPrefix`; `fmt` verbs
  `%s` and `%d`; `datamodel.PathSegment`; `mh.Encode`, `cid.NewCidV1`, `Cid.Hash`, `Cid.Prefix` with its varint reader; the
  `basicnode` implementation of data-model nodes where foreign nodes are
  mentioned; go-ipld-prime's mixins for the error cases, `LinkSystem.Load`, `LinkSystem.Store`,
  `traversal.Get` and `traversal.FocusedTransform`.

## Checks of the model

`Verif/Tests.lean` replays the tests of the package on the model: every object of
`/repo/testdata.tar.gz` is parsed and encoded to the same bytes, the person lines of
`git_test.go` are read and written as expected, and the inputs of `unmarshal_test.go`
fail with the errors expected. No claim rests on it; it is evidence that the model is
the code. `seeded/LOG.jsonl` records how the theorems fared against wrong models.

## Not modelled

* zlib (`ParseCompressedObject`): decompression is a parameter; the checksum is modelled.
* Memory exhaustion (but see C90), running time (but see C105, C108), concurrency (the package has none), the text
  of error messages. The generator in `gen/` is not
  modelled, its schema is (`Spec/Gen`). What is printed to
  standard output is modelled in `Stdout` and ignored elsewhere.

## Plan per property

| id | model | proof |
|----|-------|-------|
| C01 | `decodeBlob`, `encodeBlob` over the abstract reader | direct computation, `Atoi` of decimal printing is the identity (induction on digits) |
| C02 | same | inversion of `decodeBlob` |
| C03 | same | case analysis on the length of the rest |
| C04 | `decodeTree`, `encodeTree` on entry lists | induction on the entries |
| C05 | same, `Spec.treeBytes` | corollary of C04, plus decode of every canonical text |
| C06 | same + tree assembler's duplicate check | invariant of the loop: names seen are distinct |
| C07 | same | false as stated: negation with witness; partial: exact characterisation of accepted truncations (anything cut before the hash of an entry is dropped, cut inside a hash is an error) |
| C08 | tree value with its map and its table | invariant of assembler: the map is the lookup function of the table |
| C09 | `decodeTag`, `encodeTag`, person codec | line-by-line computation |
| C10 | same, `Spec` grammar of tag objects | false for empty messages, tags without tagger, unknown headers: negations with witnesses; partial for the canonical grammar |
| C11 | `decodeCommit`, `encodeCommit`, merge tags, signatures | induction on parents, merge tags, signature lines, other lines |
| C12 | same, `Spec` grammar of commit objects | negations for header order, ssh signatures, CRLF; partial for canonical grammar |
| C13 | commit and tag loops | every accepted header block followed by a blank line |
| C14 | commit loop | induction on lines |
| C15 | encoders on arbitrary nodes | inversion |
| C16 | all decoders | invariant of loops |
| C17 | line decoders | inversion, spec of "40 hex digits" separate |
| C18 | `shaToCid`, `cidToSha` | computation |
| C19 | `parsePersonInfo`, `gitString` | induction on the parts of a split line; exact characterisation of fixpoints |
| C20 | same | corollary |
| C21 | everything in the decoder, checked slices | loop invariants; no path returns `panic` |
| C22 | fuel never runs out | measure = bytes left |
| C23 | concrete `bufio` over chunked sources | simulation; the diverging corner (data returned together with EOF, buffer exactly full and ending in CR) as a counterexample; a simulation with one choice shows that it is the only one, apart from a blob refused because of an error that came with its last bytes |
| C24 | final error of the stream other than EOF; `bufio` over any reader that never reports EOF | loop invariants |
| C25 | both dispatchers | case analysis |
| C26 | `decodeBlock` on CID prefixes | case analysis |
| C27 | dispatchers | case analysis, spec of type words separate |
| C28 | corollaries of round trips | injectivity from left inverse |
| C29 | writers as arbitrary state machines | case analysis on the two writes |
| C30 | `encode` on decoded nodes | false: commits without author/committer panic; exact characterisation |
| C31 | representation views, builder `AssignNode` | false for commits (always fails); proved for blob, tree, tag |
| C32 | signature decoder | induction on lines; ssh signatures rejected |
| C33 | commit loop | induction on lines |
| C34 | merge tag loop | induction; the missing-separator case swallows headers (negation) |
| C35 | reader with buffer size | negation with witness for every buffer size; partial: lines shorter than the buffer are exact; `Folded` (Spec/Fold) says exactly what becomes of longer ones: the object is decoded as if its long lines were folded, by a simulation between two readers that give the same lines (Proofs/LineSim) |
| C36 | decoders | false: witness; C60 says which truncations are accepted |
| C37 | node interface, `encode` | characterisation, panics listed |
| C38 | struct assemblers driven by `AssignNode` | induction over map entries |
| C39 | tree assembler as state machine | invariant over call sequences; `AssembleKey` path violates it (witness) |
| C40 | heap model of table and map pointers | invariant over call sequences, for any growth policy |
| C41 | iterator and lookup functions | case analysis over field states |
| C42 | `atoi` | induction on digits, spec value separate |
| C43 | all decoders | ground facts carried through the loops |
| C44 | builders of all prototypes | soundness of the builders (C38) rules out acceptance, their panic causes rule out panics; the tree builder is a witness against the full claim |
| C45 | decoders and encoders | loop invariant: decoded values have the shape of the format; then the round trips apply; witnesses for each exception |
| C46 | assemblers as state machines over nested handles | invariant relating the state to a grammar of call sequences (soundness), induction on the grammar (completeness) |
| C47 | same, kept handles | finished states refuse every call; exact effect of a kept handle as the exception |
| C48 | segment and index lookups, list iterators, both views | one segment against the iteration spec, then induction on the path; negative numbers as the exact exception |
| C49 | lookups by node | by cases on the type; tree keys of other types as the exception |
| C50 | decoder on blobs and trees, `Spec/Accept` | both directions from C02–C07's lemmas; a cut-off entry characterised by inversion |
| C51 | tag loop | `ReadLine` equals a relation on bytes; the loop equals a fold over the lines by induction on the bytes left; the fold equals `TagMeans` by induction on the lines |
| C52 | commit loop with signatures and merge tags | as C51, over blocks |
| C53 | `parsePersonInfo` | splitting at spaces and joining are inverse; the two loops find the first word with the mark |
| C54 | same as C51, C52 | the grammar is unambiguous, then C51 and C52 |
| C55 | `Alias` | the decoders with slices equal those with values if a slice is right when it is returned; the memory refines the buffer of unread bytes |
| C56 | `Sharing` | invariant: what an unfinished builder writes to is seen by no other builder; the claim without the restriction on callers is refuted |
| C57 | `bufio` over readers that fail once and then do anything | invariant of all operations but `ReadLine`; counterexamples for commits and tags |
| C58 | `Typed` against `Node`, `Lookup`, `Iter` | by cases; induction for the iterators; `LookupMaybe` of a list past its end as the exception |
| C59 | `Stdout` | the decoders with output refine those without; induction on the lines; simulation for buffered readers |
| C60 | decoders on prefixes of well-formed streams | every prefix is split at header items; the cut item against the grammars of C51 and C52 |
| C61 | decoders and encoders on `Item`/`TagItem` lists | header items are read off the text uniquely (line by line; signature up to its closing line, merge tag up to the first line without a leading space); the encoder's output is itself an item list |
| C62 | decoders and encoders on arbitrary values | what is accepted (the grammar of C51 and C52) bounds the fields of the value; then the written lines are read block by block, less a trailing CR, and counting lines rules out that a signature or merge tag swallows its successors; for lines of any length the pieces that they are cut into are read instead (Proofs/Pieces), and counting bytes rules out that a piece passes for a header of its own |
| C63 | `Kinds`: one record of methods per node | by cases on type, view and method against a table by kind |
| C64 | node iterators and `AsX`, schema of `gen/gen.go` as data | the data of each value computed and shown to be read and to conform; inversion of conformance; injectivity |
| C65 | `Graph` over `Decode`, lookups and link targets | links inside a node are exactly the references of the object; a walk splits at its first link; induction on paths |
| C66 | `Graph` with `Store` | what is written for a loaded node, from C30 and C61; survival from C62 |
| C67 | `Faces`: one record of methods per assembler | by cases on type, view and method against the kind of the type; agreement with `Calls` for every frame |
| C68 | `Faces` over `Builders` | by cases; representations from the builder equivalences of C38 |
| C69 | `Calls` against `Assemble` | for each type, by induction over the data, a run of the calls and `AssignNode` end alike (`Agree`, Proofs/Feed); commits through a variant that assembles author and committer in place, since `AssignNode` panics there |
| C70 | `Calls` and the schema | C69 with the data of Proofs/Gen |
| C71 | `TreeCalls` | between entries the invariant of C39 holds and the rows are those given; a value in progress shares its mark with the tree and is in the last row when complete, so C69 for tree entries gives each row |
| C72 | `bufio` over readers that fail once and go on (`FailsOnce`) | relates the buffered reader to the stream with CR LF for the failure: the same lines on both sides (`LapseSim`), and `ReadAll` fails on one side only while the failure is ahead; a torn line longer than the buffer is handed out in the same pieces on both sides (`Torn`) |
| C73 | encode after decode | C45 gives one direction; for the other, C62 gives a well-formed value, whose header text has no line ending in CR; without a bound on the lines, C62 says it directly |
| C74 | `Handles` against `Calls` | simulation: the memory below an assembler represents the frame, parts own disjoint memory, assemblers not in use are fit to be handed out (`Sim`, Proofs/Handles); kept by every call at every depth |
| C75 | `Handles` | types with scalar parts: no assembler but the current one has a pointer (`Quiet`), so other handles fail or panic; for the rest, call sequences that build another value, evaluated by the kernel |
| C76 | `Handles` | while building in the typed view, assemblers other than the current one have no pointer or belong to an optional field that is marked as given (`Neat`, Proofs/HandlesNeat); after `Build`, no assembler can write below the memory then in use (`Still`, Proofs/HandlesAfter); types without structs have one view (Proofs/HandlesView); counterexamples evaluated by the kernel |
| C77 | `TreeCalls` | what the calls without error have made of the builder, by cases of its state (`TreePart`), preserved by every call; the value assembler's part is the invariant of C46 |
| C78 | `TreeHandles` against `TreeCalls` | simulation by cases of the builder's state (`TreeSim`, Proofs/TreeHandles): the table's arrays hold the rows, the map points to copies that agree with them, the entry assembler simulates the frame of C74 |
| C79 | `TreeHandles` | after `Build` no assembler can write below the memory then in use (`TreeStill`); counterexample for the representation evaluated by the kernel |
| C80 | `TreeHandles` | call sequences evaluated by the kernel, against completeness (C77) |
| C81 | `Reset`, `TreeReset` | two builders whose memories correspond up to a shift of references and whose assemblers are in the same state do the same (`StR`, Proofs/Reset, for every call on every handle); a new builder and one that was reset are such (Proofs/ResetActs); likewise for trees (Proofs/TreeReset) |
| C82 | `Reset`, `TreeReset` | the same relation between a builder and itself says that all its pointers are above a bound: after `Reset` these do not reach the old value |
| C83 | `Foreign` | the loops of `AssignNode` are calls without handles, so what all calls keep they keep (`Walk`, Proofs/Foreign); an assembler that is not given whole is finished as a map or list as well (`NoWhole`, `Still true`) |
| C84 | `Foreign` | counterexamples per type and view evaluated by the kernel; scalars as for C83 |
| C85 | `TreeForeign` | as C79, with `AssignNode` as calls without handles (`TAfter`, Proofs/TreeForeign) |
| C86 | `TreeForeign` | one round of the loop adds one row (`row_step`), induction on the rows with what the builder and the given tree show as invariant (`Grown`) |
| C87 | `Rest` | inversion of `parseRest`; induction over the blobs; simulation of `bufio` (C23) |
| C88 | `Foreign`, `Assemble`, `Builders` | the loops commute with setting the mark and the state that `BeginMap` sets (`St.as`), so they are calls on frames (`nd_got`, mutual induction over nodes, elements and entries, Proofs/Taken); the value model gives the same (`Gives`, `FieldsOf`, Proofs/Shown); every node shows something (`shows_total`, Proofs/ShownAll) |
| C89 | `Details` on `Calls` and `TreeCalls` | the invariant of C46 (`Partial`) ties the bit set to the keys named (`entries_keys`, `named_iff`), the child handle to the calls one level down (`partial_child`), and so the detail to the history (`call_told`, `callAt_told`, Proofs/Details); trees by the invariant of C77 |
| C90 | `Reserve` on `Bufio` | invariant of the buffer: arrays are bounded by four times its contents plus 2048, their sum by twice the capacity (`Modest`, Proofs/Reserve); the buffer's reads are those of `readLimited` with some amounts of room (`readFrom_room`), so every theorem about `decodeBlob` applies |
| C91 | `Blobs` | invariant of all worlds a client can bring about: builders that are not done own their nodes alone (`Safe`, Proofs/Blobs); an array without a slice in the client's hands stays as it is (`Private`) |
| C92 | `DeepEqual` | mutual induction on what is read from a node (`Reads`); all nodes have the iterator of their kind, which yields `Length` entries; injectivity of `ownData`, across types too (`Alike`) |
| C93 | `Basicnode` | `Decode` is `ParseObject` and delivery (C25); the entries of each type run through `Struct.run`; C92 for equality of copies |
| C94 | `Depth` | what a merge tag costs in bytes, by induction on the frames; a tower of merge tags for the other direction |
| C95 | `Decode`, `Encode` | points: every byte read earns 84, every byte to be written costs 59; the balance is an invariant of the loops |
| C96 | `Zlib`, `Bufio` | the zlib reader keeps the contract of `io.Reader`, with an error at the end that tells whether the data is intact; then C23 and C24; for blobs, that a read of less than a buffer never returns data and an error |
| C97 | `Decode` | each loop fails with an error exactly if its grammar of faults derives it, by induction on the stream; what a valid beginning means is taken from C50 to C52 |
| C98 | `Decode`, `Encode` | the headers before the signature as in C11, the signature by C97 or C32; for what was signed, C61 on the headers without the signature |
| C99 | `Select`, `Graph` | the result of SelectLinks is the links of what is read from a node (`Reads`), by mutual induction; then the links of `ownData`; C65 and induction on the path for reachability |
| C100 | `Decode`, `Encode` | what is decoded and written by C61; the headers of a list of lines by induction, with a known header absorbing the continuations that follow |
| C101 | `Calls`, `TreeCalls`, `Encode` | the struct builder by induction over the entries of a permutation, every field assembled on its own; the rows of a tree by C71; a sorted list is the only sorted permutation of itself |
| C102 | `Decode` | the grammar of C52 on a text that begins as git reads it; for the message, blocks that lie within a list of lines by induction on the grammar, and blocks never reach beyond what is left |
| C103 | `Decode`, `Encode` | a person of fsck cut into words and read by C52; what is written compared with the form fsck wants byte by byte from the first separators; that no NUL appears by induction on the grammar |
| C104 | assemblers under `FocusedTransform` | filling an assembler with edited entries is filling it with the entries of the edited map, by induction on the entries with the state of the assembler between entries (C38); trees by the invariant of the table; denotation kept through an edit by induction on the path |
| C105 | `ParseObject` | counting erased by induction on the loops; a budget handed from step to step, in which a line pays for its own use and an array saves for its next move (amortisation); the lower bound by an explicit family, by induction on the words of a name |
| C106 | `Decode`, `Encode` | the texts of git's writers cut into items: cleaned names have no separators, the value of an extra header is cut into lines by induction; the encoder's order as ranks that do not fall, so the extra headers split |
| C107 | `ParseObject` with the range of `int` as a parameter | `Atoi` for a smaller range is `Atoi` cut to it; the announced size is unique in the text |
| C108 | `Encode` | counting erased by a relation between what a step appends and the encoder's text, composed along the steps; every appended byte pays 31 into a budget that the buffer's array draws on (amortisation); the lower bound from the last write; a family of trees for the condition |
| C109 | `Decode`, `Encode` | a line automaton after git's; the encoder's text of a commit that git made as a list of lines, by induction on the extra headers; exactness from that of C106 for the unsigned commit |
| C110 | `Encode` | the encoder's text for any value, taken apart at its first line ends; an empty line in a concatenation of texts that end their lines is one in a part; entries of a tree split uniquely |
| C111 | `Decode`, `Encode` | the body regrouped by induction: twelve bytes move from each entry to the next; then the exact language of trees (C50) |
| C112 | `Decode` | the languages of C50 to C52 have unique readings; for what git makes the encoder's text is computed from the node part by part (C109) |
| C113 | `Encode` | the encoder's text as a function of the signature field; git's line automaton keeps all lines exactly if their number stays the same |
| C114 | `Encode` | the encoder's text as a function of the message; the last line that begins like a signature is unique; in an armour no later line begins with a dash but the last |
| C115 | `Encode` | the encoder cut into its steps; each step fails exactly by the shape of one entry; commits by the exact value of AssignNode (C88) |
| C116 | `Encode`, `Decode` | the language of blobs (C50); the word before the first space is the type |
| C117 | `Decode` over `bufio.Reader` | what is buffered never exceeds the buffer (an invariant of the simulation); for greedy readers the run is computed: one fill, all reads from it |
| C118 | `readMergeTag`, `encodeTag`, `encodeCommit` | from what is read of commits and tags as git makes them (C106); the lines of a text and back; the grammar of commits (C50) for arbitrary input |
| C119 | `readMergeTag`, `encodeCommit` | what is written again is a list of headers, each with its continuation lines (C109); git takes exactly these apart |
| C120 | `Encode`, the builders, README.md | the first key decides (C115); required fields that are missing (C38, C69); the tree from its calls (C71) |
| C121 | `Decode` on builders of commits and tags | invariant of the builder between calls: its first field, a required one, is never finished, so `Finish` never succeeds and only `AssignNode` of the own type marks the value; at an unknown key the assembler is stuck |
| C122 | `Decode` on builders of trees | three phases of the builder; in the last the row of the refused value is in the table and the map, as for a value that was given (C86) |
| C123 | both directions on whole files | the exact conditions of C62 on the object read; for what git makes, C106 with a buffer one byte larger. C66 uses it for blocks of any content |
| C124 | `ParseObject` and `Encode` on signed tags | signature and text of a tag together are the tag, so C123 decides; for tags that git makes given_tag |
| C125 | `DecodeTreeEntry` called by a client | one call by cases on the rest of the text, then induction on the calls; the tree by the loop of `DecodeTree`; any reader by the simulation of C23 |
| C126 | `ParseObject` on a file whose type word is another | the exact conditions of C50, C51 and C52, met by any text that lacks the words |
| C127 | `ParseObject` on a file and what follows it | the grammars of C51 and C52 with bytes behind: no line before the message is the last one, so none changes; trees by C125 |
