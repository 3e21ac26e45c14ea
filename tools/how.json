{
 "1-4,66": "StringStream as a state machine over a list; invariant over call sequences, refinement to (content, position)",
 "5": "StreamBase::skip as a loop over an arbitrary contract-respecting stream; induction on the remaining amount",
 "6-13": "StreamBuffer (memory as a list, offsets) and BufferedStream over an arbitrary producer; representation invariant: memory window = content window",
 "14-17,61-62": "SubInputStream over an arbitrary contract-respecting parent; contract transformer; witnesses for the violations",
 "18-19": "Turbo-Boyer-Moore with bounds-checked arrays; table specifications, loop invariant with turbo memory; counterexample for the full claim",
 "20-22,64": "StringTerminatedSubStream over a contract-respecting parent; invariant over reads, uses C18",
 "23-24,57,69": "DataEventInputStream with an arbitrary handler; invariant over call sequences, traces of events",
 "25-27": "Base64 decoder as a state machine; chunk-independent denotation, round trip by induction on groups",
 "28-31,42": "automata and byte loads; characterisation by induction, arithmetic",
 "32-34,63": "file streams over a file-content list; as C01/C06; witness for C34",
 "35-36,67-68": "tar provider over any correct input; serialise/parse round trip, Presents over all client behaviours",
 "37": "ar provider, as C36",
 "38-40,65": "cpio provider, as C36; witnesses",
 "41,75-78": "zip provider with an abstract inflate; as C36; witnesses",
 "43-44,60,70-72,79-86": "mail provider: header automaton, boundary search (C18), parts; specification MimeSpec; witnesses",
 "45-47,53-54,87-93": "listing tree as finite maps, DirLister and ArchiveReader as state machines; induction on insertions, lockstep invariants; witnesses",
 "48-49,94-100": "OLE provider with checked arithmetic; decreasing measure on unused blocks, chain specification; witnesses",
 "50-51,74": "SDF provider; uses C18",
 "52,101-105": "ProcessInputStream against an arbitrary machine; traces of system calls",
 "55": "decompressing streams over an abstract decompressor; produces relation, repositioning",
 "56": "EncodingInputStream over an abstract charset",
 "58-59,73": "sniffing over any correct stream; magic numbers by exhaustive case analysis on bytes",
 "106-108": "LZMAInputStream over an abstract decoder",
 "109-111": "RPM provider over abstract decompressors; checked arithmetic",
 "112-113": "GZipCompressInputStream over an abstract compressor",
 "114-117": "LzmaDec.c function by function; simulation of the format (range coder, symbols, dictionary window, lookahead), then composition with C106",
 "118-119": "the same simulation for broken data; the format stands for finitely many bytes (decreasing weight of the range coder)",
 "120": "file system as a function of paths; C63; lists",
 "121-122": "file with an I/O error behind its bytes, or with another reported size; contract of BufferedStream; unfolding",
 "123-124": "induction on the strings",
 "125-128": "inputs robust against any use; invariant of the provider over all calls (Visits); counterexamples by computation",
 "129-130": "streams whose content becomes known while being read (Growing); measure of bytes left and pending output; invariant of the provider over all calls",
 "131": "invariant of the provider over all calls (Visits) on robust inputs; measure of bytes left",
 "132": "Proofs/PartSafe, Base64Safe, MailLineSafe, MailScanSafe, MailSafe: an invariant of the mail reader over any Robust input (Env); every function of the reader is shown to return and to keep it; TameBy/VisitsBy MildRead lift this to all clients; Proofs/RewindStreams gives the inputs.",
 "133": "short_any (Proofs/RobustStreams): the case of a short read without the condition on the maximum, on the invariants of the file streams; the exceptions by unfolding the model and the specification of the search.",
 "134": "Proofs/Sturdy: a notion of stream that may be used in any way which, unlike Robust, is closed under substreams; Proofs/Robust (Nests), ArchiveSafe, ZipSafe, SdfSafe, UnpackSafe: each reader on a Sturdy stream preserves an invariant and presents Sturdy streams; Proofs/Nest: mutual induction over the client (Used, Session), induction over the depth (Open). The two necessary restrictions by evaluating the model.",
 "135": "induction over the depth; what a stored entry gives is what the stream below gives, what the file gives are slices of its content (Proofs/Within)",
 "136": "Proofs/Isolate: the states of an entry stream that a client has used as in Presents are Sturdy (calls that the contract does not describe, such as a maximum below the minimum or a huge skip, do the same as legitimate ones), so by the induction of C134 whatever happens in inner readers leads to such a state again, from which Presents goes on; embedding of the three kinds of zip entries",
 "137": "Proofs/Cut (a SubInputStream on a parent that ends too early: the invariant is that all that is missing is missing in the parent), Proofs/CpioCut: PresentsThen by induction over the complete members, then one step of nextEntry for each position of the cut",
 "138": "Proofs/TarCut: PresentsThen by induction over the complete entries, then one evaluation of parseHeader for each kind of remainder; the kinds of remainders that a cut can leave by induction over the archive",
 "139": "Proofs/ArCut: PresentsThen by induction over the complete members, one evaluation of readHeader for each kind of remainder; the kinds of remainders by induction over the archive",
 "140": "`ErrorSpec`: `FailStop` inputs and `TellsErrors`, an invariant over all histories (`Reach`) of calls. Per reader a proof that every function keeps an error of the input, sets `Eof` only behind a successful read, and turns an error into `Error` (`Proofs/TellsErrors`: `Watch`). Inputs: `BufferedStream` over any producer. Mail: the defect for all failing inputs.",
 "141": "`Model/MMapErrors`: the class with a null buffer and an unknown size; equality with the model of C32 where nothing fails; direct evaluation of the sequences of calls otherwise, for all arguments.",
 "142": "`Model/Buffer32`: the same functions with every 32-bit sum and product checked. `makeSpace` is characterised by its effect on the size; induction over histories (`Uses`) of calls. The overflow is a symbolic execution for all K.",
 "143": "`Proofs/LzmaBound`: every symbol uses up weight (bytes and range), so that a bound for the output follows by induction over the symbols. `Proofs/LzmaSafe`: `Emits` for the producer over any `Sturdy` input from C116 (each call of the decoder), then `BufferedStream.growing`; a further reader in `NestSpec`.",
 "144": "`Proofs/RpmSafe`: the payload is a `Growing` stream in each of the three cases (C129, C143), so it may be used in any way; the constructor by evaluation over any `Sturdy` input; `Tame` of the cpio reader (C127) lifted to the provider.",
 "145": "`Proofs/Doomed`: a buffered stream over a producer that can only go on or fail never says `Eof` (invariant over all uses); a decompressor over a strict beginning of its data is such a producer. `Proofs/ZipCut`: what leaving an entry leads to, after any use, also one that ended with an error; then the header, name and data cases by evaluation of `nextEntry` over any input.",
 "146": "Symbolic execution for all states; for the buffered streams induction on the items left, over any stream that satisfies `IsStream`.",
 "147": "Encodings with a state (`CharsetSpec`): C56 by the same invariant with the state of the converter added; the loss follows, for all inputs; the overflow by symbolic execution of three reads, for every encoding of the kind and every continuation.",
 "148": "`Model/HeaderConv`: the decoding of headers with the converters that are kept; refinement to `decodedHeaderValue` with a function as the converter (loop by induction); induction over sequences of words with the invariant that all converters are in their initial state.",
 "149": "`Model/Lifecycle`: the four classes with the blocks of memory of their libraries, the constructors with failing allocations, and the destructors; that the memory changes nothing is a simulation (`Follows`) carried through `read`, `skip`, `reset` and all histories; what is owned is an invariant of `fillBuffer`; streams with an error never change.",
 "150": "`Model/Messages`: the classes again with the member `m_error`; that it changes nothing is a simulation (`Follows`); that there is a text is an invariant of `fillBuffer` (`Speaks`) carried through `read`, `skip` and `reset` by induction on the loops; the cases without a text by symbolic execution for all states.",
 "151": "`Model/ReaderHistory`: the reader with its cache, its listings (numbered objects) and the `DirLister`s in the hands of the user; a history is a list of calls. Invariant `RInv` (cache = complete listings, listings = reachable states of the listing of the file, every `DirLister` has returned a part of what its entry shows) kept by every call, by induction on the history; pointers of other `DirLister`s are followed through each step of a listing (`watch`). The witnesses are runs.",
 "152": "`Model/SubStreams`: the checks for bz2, gzip and LZMA, the loop over the formats and the walk through all entries, over the models of the readers (streams of different types: continuations, `Use`). `Holds` (WalkSpec) says inductively what is in the bytes; the proof is by induction over it: each layer presents its contents and hands back a usable stream (`Nests`), the checks only look at the start (`Looks`). For single formats the round trips C36, C37, C41; `C152_example` is an `ar` in a compressed file in an `ar`.",
 "153": "`walk` of `Model/SubStreams` (C152) on a stream that is only known to be robust. `Inside` (WalkSafeSpec) says inductively which streams can appear, `Fits` what is required where a reader is opened; each step of `walk` is a use of the stream in the sense of C134 (`Used`, `Session`), so that every call returns and the stream stays usable (`Harmless`), by induction on the structure of `walk`. That it ends (C153_unpack: layers of compression only; C153_ends: stored entries only) is proved with entries that are shorter than what they are part of (`Steady`, Proofs/SubEnds): the number of bytes bounds the depth and the number of rounds of each loop. Full statement: the same for all readers of the library, with termination in general.",
 "154": "Objects are numbers with the stream that they read from and the entry that they delete themselves (Model/Ownership); a deletion of a dead object, and a use of an object that is dead or reads from one that is, are faults. What is found in the files is a script (`Finds`, `Round`, `Probe`) that may be anything. Proof: a list of streams owns its members and their entries (`Own`); it can be deleted if nothing is owned twice (`Frees`), and used if all that is read from is owned (`Seg`); `subStreamProvider` and the loop of `positionedProvider` keep this for what they made (`Grow`); the lists of the open streams are disjoint (`Inv`), by induction over the calls.",
 "155": "The pointers of each provider, and `nextEntry` and the destructors as operations on them, with an arbitrary script for what is in the file (Model/EntryOwnership). Proof: at any time the heap is what it was before plus one of five shapes (no entry; an entry; an entry that two pointers point to; one with one or two streams behind it), by induction over the requests; RPM with the provider of the cpio archive as an object of its own.",
 "156": "The functions that go through the list of openers, and those that call them, for a list of openers (Model/Openers); what they do with the first opener that knows a url is in Model/ReaderHistory. The specification (OpenerSpec) says which opener is the one that acts as all of them. Proof: `open` is the first opener that opens (induction on the list), `localStat` asks the first that knows; for honest openers both are the same one; then the calls are equal, and the histories by induction, so that C151, C88 and C89 carry over.",
 "157": "Memory as a list of blocks, the stream with a pointer into it (Model/StringMemory); the calls, and arbitrary functions on the memory that leave the block of the stream alone, in any order. Proof: refinement to the StringStream over a list (`Same`), by induction over the history; the pointers that were returned are kept, and their items are looked at in the last state.",
 "158": "PointerSpec: in which states which part of the stream is still where `read` said. `Pointers.read`: a read makes it so for what it returned; `Pointers.reset`: a reset into that part keeps it. For a BufferedStream the pointer is an index into the memory of the buffer and the items are compared with the memory (`StillThere`); the other streams, over any input that has the property, by case analysis on their functions, so the theorems compose."
}