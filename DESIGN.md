# Formal model of KDE/libstreams in Lean 4 — design

## Approach

`/repo` is read as text; every model definition cites the file and lines it models.  Streams become
state machines: `read/skip/reset : State → args → Res (State × result)`.  `Res` has three outcomes:
`ok`, `fault f` (assertion failure, out-of-bounds access, other undefined behaviour: kept as a
distinct outcome, never assumed away) and `diverge` (a loop that would not end).

* `Verif/Base.lean`       – `Res`, `Fault`, `Status`, 32-bit narrowing, helper lemmas on lists.
* `Verif/Spec.lean`, `Verif/Contract.lean` – the stream interface (`StreamOps`), the documented contract of
  `StreamBase` (`include/strigi/streambase.h`) as a relation on call/return pairs (`ReadOk`, `SkipOk`, `ResetOk`), its
  closure over arbitrary call sequences (`IsStream ops c F soft s`: from state `s` the stream behaves as a stream over the
  items `c`; `F` says which calls may fail; `soft`: any reset is tolerated).
* `Verif/*Spec.lean`, `Verif/LzmaFormat.lean` – the other specifications (formats, what a correct compressor is, …); they mention no model
  helper.
* `Verif/Model/*.lean`    – the model, one file per source file (or group of small ones).
* `Verif/Proofs/*.lean`   – helper lemmas, invariants.
* `Verif/Props/*.lean`    – the property theorems, each with a non-vacuity `example` or a concrete instance.

Integers are unbounded `Int`/`Nat`, except where narrowing or overflow matters (then the explicit cast is modelled by
`Int.bmod`/`BitVec`/reduction modulo 2^32, or a signed overflow is a fault).  Loops carry fuel; theorems hold for all sufficiently large
fuel (an explicit bound), so that the fuel never is the reason for a result; running out of it is `diverge`.

A property that turned out to be false of the code is kept in the list as the true statement about the code, with a
theorem that exhibits the violation ("negative result", "refuted claim").

## Trusted base

* Lean's kernel (4.33.0).  `vcheck` replays all modules with the kernel.  No `native_decide`, `bv_decide`, axioms of our own, or unfinished proofs.
* Axioms: every theorem depends on at most `propext`, `Classical.choice` and `Quot.sound`.  The list per theorem is in
  `AXIOMS.md` (generated with `#print axioms`).
* That the model says what the C++ says: by reading.  The mutation log (`seeded/LOG.jsonl`) shows that the theorems notice wrong edits
  of the model; it cannot show that the model is right.
* The specifications: `Spec`, `Contract`, `ProducerSpec` (documentation of `fillBuffer`), `SearchSpec` (first occurrence), `EventSpec`, `Base64Spec`,
  `TextSpec` (UTF-8, numbers), `ArchiveSpec` (what a client may do with an archive: `Presents`), `CpioSpec`, `ArSpec`, `TarSpec`, `ZipSpec`,
  `RpmSpec`, `OleSpec`, `SdfSpec`, `MailSpec`, `MimeSpec` (the formats), `DecompressSpec` (`Unpacks`), `CompressSpec` (`Packs`), `CharsetSpec` (`Lawful`),
  `ListingSpec`, `SafetySpec`, `ProcessSpec`, `TraceSpec`, `LzmaSpec`, `LzmaFormat`.
* `decide +kernel` is used for concrete data only (examples, witnesses of violations): it is evaluated by the kernel.

## What is modelled

| source | model | left out |
|---|---|---|
| include/strigi/streambase.h (`skip`) | Model/BaseSkip | `error()` strings (everywhere) |
| include/strigi/stringstream.h | Model/StringStream, Model/StringMemory (pointers) | |
| include/strigi/streambuffer.h, bufferedstream.h | Model/BufferedStream, Model/Buffer32 (32-bit numbers: C142) | `realloc` failure |
| lib/subinputstream.cpp | Model/SubInputStream | |
| lib/fileinputstream.cpp, mmapfileinputstream.cpp, skippingfileinputstream(2).cpp, skippingbufferedstream.h, filereader.h | Model/FileStreams | errors of `fopen`/`stat`/`mmap` beyond "cannot be opened"; files that change while they are read |
| lib/kmpsearcher.cpp | Model/Kmp | |
| lib/stringterminatedsubstream.cpp | Model/StringTerminated | |
| lib/dataeventinputstream.cpp, signatureinputstream.cpp | Model/DataEvent, Model/Signature | |
| lib/base64inputstream.cpp | Model/Base64 | |
| lib/textutils.cpp, include/strigi/textutils.h, dostime.cpp | Model/TextUtils | `mktime` (a parameter) |
| lib/gzipinputstream.cpp, bz2inputstream.cpp | Model/Decompress, Model/Lifecycle, Model/Messages, Model/Magic | zlib and libbz2 are an abstract `Decompressor` with `Unpacks` |
| lib/gzipcompressstream.cpp | Model/GZipCompress, Model/Lifecycle, Model/Messages | deflate is an abstract `Compressor` with `Packs`; codes other than `Z_OK`/`Z_STREAM_END` |
| lib/lzmainputstream.cpp | Model/LzmaStream, Model/Lifecycle, Model/Messages, Model/Magic | |
| lib/lzma/LzmaDec.c | Model/LzmaDec | `malloc`/`free`; `LzmaDecode` (not called) |
| lib/encodinginputstream.cpp, inputstreamreader.cpp | Model/Iconv | iconv is a `Charset` (with a state); `errno` other than `EILSEQ`, `EINVAL`, `E2BIG` |
| lib/tarinputstream.cpp, arinputstream.cpp, cpioinputstream.cpp, zipinputstream.cpp, sdfinputstream.cpp, rpminputstream.cpp | Model/Tar, Ar, Cpio, Zip, Sdf, Rpm, CLib | RPM: after a rejection the input is not tracked |
| lib/mailinputstream.cpp | Model/MailText, Model/HeaderConv, Model/Mail | lines of 2^20 bytes and more; input that does not start at position 0 |
| lib/oleinputstream.cpp | Model/Ole | inputs of unknown size only as C100 |
| lib/processinputstream.cpp | Model/Process | `fork`/`exec`; the child and the system are an arbitrary machine that answers the system calls |
| lib/substreamproviderprovider.cpp, include/strigi/substreamprovider.h | Model/Sniff | the order of the candidates (it depends on addresses of functions) |
| lib/listinginprogress.cpp, archiveentrycache.cpp | Model/Listing, Model/SubStreams | in Model/Listing substream providers are abstracted as `Contents`; Model/SubStreams computes these from the bytes (`subStreamProvider`); `used` flags of providers and `mimetype` are left out |
| lib/archivereader.cpp | Model/DirLister, Model/ArchiveReader, Model/ReaderHistory, Model/Openers (several openers), Model/Ownership (who deletes the streams), Model/EntryOwnership (the providers) | what a failing `stat` of an opener writes is not looked at; pointers of `DirLister`s as path or orphan; copying of `Private` as far as C92/C93 need |
| lib/filestreamopener.cpp | Model/Opener | `fopen`/`stat` as functions of the path |
| lib/compat.cpp | Model/Compat | only compiled where the platform lacks the functions; `setenv`, `mkstemp`; `tolower` of negative values |
| lib/strigiconfig.cpp, CMake files, tests | – | everything (version strings, build) |

Not expressible in this model: failure of memory allocation, pointer validity beyond buffer bounds (except where a theorem is about it: C92, C98),
threads (the library has none), the internals of zlib, libbz2, iconv, `mktime`.

Assumptions that several theorems share: inputs of archives do not fail (`Failure.never`) unless the theorem says so; contents are shorter than 2^31 bytes where positions are
narrowed to 32 bits by the code; `read` is called with `1 ≤ min` and (`max = 0` or `min ≤ max`), `skip` with `0 ≤ k < 2^31`, as the documentation demands; safety theorems
(`SafetySpec`) drop these assumptions.

## Plan per property

| id | property | theorems in | how it is modelled and proved | status |
|---|---|---|---|---|
| C01 | In-memory stream returns exactly the source items at the reported positions | Props/StringStream | StringStream as a state machine over a list; invariant over call sequences, refinement to (content, position) | proved |
| C02 | read() respects max and min on the in-memory stream | Props/StringStream | StringStream as a state machine over a list; invariant over call sequences, refinement to (content, position) | proved |
| C03 | reset() on the in-memory stream reaches every position and clamps the rest | Props/StringStream | StringStream as a state machine over a list; invariant over call sequences, refinement to (content, position) | proved |
| C04 | skip() on the in-memory stream skips exactly min(n, remaining) items | Props/StringStream | StringStream as a state machine over a list; invariant over call sequences, refinement to (content, position) | proved |
| C05 | Default StreamBase::skip is the iteration of read and never overshoots | Props/BufferedStream | StreamBase::skip as a loop over an arbitrary contract-respecting stream; induction on the remaining amount | proved |
| C06 | Buffered stream delivers the producer's items in order, none lost or duplicated | Props/BufferedStream | StreamBuffer (memory as a list, offsets) and BufferedStream over an arbitrary producer; representation invariant: memory window = content window | proved |
| C07 | Buffered stream: read size limits | Props/BufferedStream | StreamBuffer (memory as a list, offsets) and BufferedStream over an arbitrary producer; representation invariant: memory window = content window | proved |
| C08 | Buffered stream: rewinding to the start of the last read always succeeds and rereads the same items | Props/BufferedStream | StreamBuffer (memory as a list, offsets) and BufferedStream over an arbitrary producer; representation invariant: memory window = content window | proved |
| C09 | Buffered stream never violates its assertions nor writes outside its buffer | Props/BufferedStream | StreamBuffer (memory as a list, offsets) and BufferedStream over an arbitrary producer; representation invariant: memory window = content window | proved |
| C10 | Buffered stream: longer-than-declared data is reported as an error | Props/BufferedStream | StreamBuffer (memory as a list, offsets) and BufferedStream over an arbitrary producer; representation invariant: memory window = content window | proved |
| C11 | Buffered stream: at Eof the size is known and equals the number of items produced | Props/BufferedStream | StreamBuffer (memory as a list, offsets) and BufferedStream over an arbitrary producer; representation invariant: memory window = content window | proved |
| C12 | Buffered stream: error is sticky | Props/BufferedStream | StreamBuffer (memory as a list, offsets) and BufferedStream over an arbitrary producer; representation invariant: memory window = content window | proved |
| C13 | Buffered skip advances exactly min(n, remaining) | Props/BufferedStream | StreamBuffer (memory as a list, offsets) and BufferedStream over an arbitrary producer; representation invariant: memory window = content window | proved |
| C14 | SubInputStream exposes exactly a window of its parent | Props/SubInputStream | SubInputStream over an arbitrary contract-respecting parent; contract transformer; witnesses for the violations | proved |
| C15 | SubInputStream reports a too short parent as an error | Props/SubInputStream | SubInputStream over an arbitrary contract-respecting parent; contract transformer; witnesses for the violations | proved |
| C16 | Resetting a SubInputStream past its end breaks the window | Props/SubInputStream | SubInputStream over an arbitrary contract-respecting parent; contract transformer; witnesses for the violations | proved |
| C17 | Nested substreams compose | Props/SubInputStream | SubInputStream over an arbitrary contract-respecting parent; contract transformer; witnesses for the violations | proved |
| C18 | String search returns the first occurrence | Props/Kmp | Turbo-Boyer-Moore with bounds-checked arrays; table specifications, loop invariant with turbo memory; counterexample for the full claim | proved |
| C19 | String search never reads or writes outside its tables and inputs | Props/Kmp | Turbo-Boyer-Moore with bounds-checked arrays; table specifications, loop invariant with turbo memory; counterexample for the full claim | proved |
| C20 | A terminated substream delivers exactly the bytes before the first terminator | Props/StringTerminated | StringTerminatedSubStream over a contract-respecting parent; invariant over reads, uses C18 | proved |
| C21 | A terminated substream leaves the parent right after the terminator | Props/StringTerminated | StringTerminatedSubStream over a contract-respecting parent; invariant over reads, uses C18 | proved |
| C22 | A terminated substream read with the default arguments may run past the terminator | Props/StringTerminated | StringTerminatedSubStream over a contract-respecting parent; invariant over reads, uses C18 | proved |
| C23 | Data events cover every byte exactly once and in order | Props/DataEvent | DataEventInputStream with an arbitrary handler; invariant over call sequences, traces of events | proved |
| C24 | handleEnd is called at most once, and only after all data was delivered | Props/DataEvent | DataEventInputStream with an arbitrary handler; invariant over call sequences, traces of events | proved |
| C25 | Base64 streaming decode inverts encoding | Props/Base64 | Base64 decoder as a state machine; chunk-independent denotation, round trip by induction on groups | proved |
| C26 | Base64 stream output does not depend on chunking | Props/Base64 | Base64 decoder as a state machine; chunk-independent denotation, round trip by induction on groups | proved |
| C27 | One-shot base64 decode inverts encoding and rejects malformed text | Props/Base64 | Base64 decoder as a state machine; chunk-independent denotation, round trip by induction on groups | proved |
| C28 | checkUtf8 accepts every well-formed XML text and what else it accepts is characterised | Props/TextUtils | automata and byte loads; characterisation by induction, arithmetic | proved |
| C29 | The position-reporting checkUtf8 agrees with the boolean one | Props/TextUtils | automata and byte loads; characterisation by induction, arithmetic | proved |
| C30 | convertNewLines only replaces line breaks by spaces | Props/TextUtils | automata and byte loads; characterisation by induction, arithmetic | proved |
| C31 | Endian readers decode the byte order they claim | Props/TextUtils | automata and byte loads; characterisation by induction, arithmetic | proved |
| C32 | Memory-mapped file stream honours the read/reset/skip contract | Props/FileStreams | file streams over a file-content list; as C01/C06; witness for C34 | proved |
| C33 | Unbuffered file stream returns the file's bytes at the reported position | Props/FileStreams | file streams over a file-content list; as C01/C06; witness for C34 | proved |
| C34 | SkippingBufferedStream can hand out wrong bytes after skip and reset | Props/FileStreams | file streams over a file-content list; as C01/C06; witness for C34 | proved |
| C35 | Tar: iteration is independent of how much of each entry is read | Props/Tar | tar provider over any correct input; serialise/parse round trip, Presents over all client behaviours | proved |
| C36 | Tar: reading back what was written | Props/Tar | tar provider over any correct input; serialise/parse round trip, Presents over all client behaviours | proved |
| C37 | Ar: reading back what was written | Props/Ar | ar provider, as C36 | proved |
| C38 | Cpio: reading back what was written | Props/Cpio | cpio provider, as C36; witnesses | proved |
| C39 | Cpio hex fields decode to the number they encode | Props/Cpio | cpio provider, as C36; witnesses | proved |
| C40 | Cpio name parsing may read past the name buffer | Props/Cpio | cpio provider, as C36; witnesses | proved |
| C41 | Zip: stored entries read back | Props/Zip | zip provider with an abstract inflate; as C36; witnesses | proved |
| C42 | DOS time decoding loses the afternoon | Props/TextUtils | automata and byte loads; characterisation by induction, arithmetic | proved |
| C43 | Quoted-printable decoding inverts encoding | Props/MailText | mail provider: header automaton, boundary search (C18), parts; specification MimeSpec; witnesses | proved |
| C44 | Mail header check accepts exactly prefixes of well-formed header blocks | Props/MailText | mail provider: header automaton, boundary search (C18), parts; specification MimeSpec; witnesses | proved |
| C45 | Archive listing cache finds exactly what was added | Props/Listing | listing tree as finite maps, DirLister and ArchiveReader as state machines; induction on insertions, lockstep invariants; witnesses | proved |
| C46 | The cache root lookup picks the longest cached ancestor | Props/Listing | listing tree as finite maps, DirLister and ArchiveReader as state machines; induction on insertions, lockstep invariants; witnesses | proved |
| C47 | DirLister lists every entry exactly once | Props/DirLister | listing tree as finite maps, DirLister and ArchiveReader as state machines; induction on insertions, lockstep invariants; witnesses | proved |
| C48 | OLE block chains are followed at most once per block | Props/Ole | OLE provider with checked arithmetic; decreasing measure on unused blocks, chain specification; witnesses | proved |
| C49 | OLE files of any content are read without leaving the file image | Props/Ole | OLE provider with checked arithmetic; decreasing measure on unused blocks, chain specification; witnesses | proved |
| C50 | SDF line skipping | Props/Sdf | SDF provider; uses C18 | proved |
| C51 | SDF entries | Props/Sdf | SDF provider; uses C18 | proved |
| C52 | Process input delivery | Props/Process | ProcessInputStream against an arbitrary machine; traces of system calls | proved |
| C53 | isArchive answers true for every existing file | Props/ArchiveReader | listing tree as finite maps, DirLister and ArchiveReader as state machines; induction on insertions, lockstep invariants; witnesses | proved |
| C54 | Listing nested archives deeper than the stack overruns it | Props/Listing | listing tree as finite maps, DirLister and ArchiveReader as state machines; induction on insertions, lockstep invariants; witnesses | proved |
| C55 | Decompression streams emit exactly the decompressor's output and reposition the input | Props/Decompress | decompressing streams over an abstract decompressor; produces relation, repositioning | proved |
| C56 | Character set conversion does not depend on chunking | Props/Iconv, IconvState | EncodingInputStream over an abstract charset | proved |
| C57 | Signature stream is transparent | Props/Signature | DataEventInputStream with an arbitrary handler; invariant over call sequences, traces of events | proved |
| C58 | Format sniffing leaves the stream where it was | Props/Sniff | sniffing over any correct stream; magic numbers by exhaustive case analysis on bytes | proved |
| C59 | Header magic checks are exact | Props/Magic | sniffing over any correct stream; magic numbers by exhaustive case analysis on bytes | proved |
| C60 | Mail header lines are split where header lines end | Props/Mail | mail provider: header automaton, boundary search (C18), parts; specification MimeSpec; witnesses | proved |
| C61 | Substream size is known at Eof | Props/StringTerminated, SubInputStream | SubInputStream over an arbitrary contract-respecting parent; contract transformer; witnesses for the violations | proved |
| C62 | Skipping in an empty substream of unknown size moves before its start | Props/SubInputStream | SubInputStream over an arbitrary contract-respecting parent; contract transformer; witnesses for the violations | proved |
| C63 | Buffered file stream delivers the file whatever the buffer size and reported size | Props/FileStreams | file streams over a file-content list; as C01/C06; witness for C34 | proved |
| C64 | A terminated substream beyond two gigabytes ignores its terminator | Props/StringTerminated | StringTerminatedSubStream over a contract-respecting parent; invariant over reads, uses C18 | proved |
| C65 | Malformed archives are reported, they do not abort the program | Props/Cpio | cpio provider, as C36; witnesses | proved |
| C66 | In-memory stream built without a length | Props/StringStream | StringStream as a state machine over a list; invariant over call sequences, refinement to (content, position) | proved |
| C67 | Tar: an archive with exactly two zero blocks ends with Error | Props/Tar | tar provider over any correct input; serialise/parse round trip, Presents over all client behaviours | proved |
| C68 | Tar: GNU long names are reported with the data block's terminating NUL | Props/Tar | tar provider over any correct input; serialise/parse round trip, Presents over all client behaviours | proved |
| C69 | Signature stream starts at position 0 whatever the position of its input | Props/Signature | DataEventInputStream with an arbitrary handler; invariant over call sequences, traces of events | proved |
| C70 | Mail header values: encoded words are decoded, everything else is copied | Props/MailText | mail provider: header automaton, boundary search (C18), parts; specification MimeSpec; witnesses | proved |
| C71 | Folded mail header values lose a character | Props/MailText | mail provider: header automaton, boundary search (C18), parts; specification MimeSpec; witnesses | proved |
| C72 | Mail header values are read one byte too far | Props/MailText | mail provider: header automaton, boundary search (C18), parts; specification MimeSpec; witnesses | proved |
| C73 | Format sniffing of short inputs | Props/Sniff | sniffing over any correct stream; magic numbers by exhaustive case analysis on bytes | proved |
| C74 | SDF entries do not depend on read boundaries | Props/Sdf | SDF provider; uses C18 | proved |
| C75 | A zip file without members is reported as an error | Props/Zip | zip provider with an abstract inflate; as C36; witnesses | proved |
| C76 | Zip members with an unsupported method are handed out raw and cut at the wrong size | Props/Zip | zip provider with an abstract inflate; as C36; witnesses | proved |
| C77 | Zip member without a name: read before the start of the name | Props/Zip | zip provider with an abstract inflate; as C36; witnesses | proved |
| C78 | A zip member whose data descriptor is cut off ends the iteration with Error | Props/Zip | zip provider with an abstract inflate; as C36; witnesses | proved |
| C79 | Multipart mails: the entries are the parts | Props/Mail | mail provider: header automaton, boundary search (C18), parts; specification MimeSpec; witnesses | proved |
| C80 | Mail header accessors return the last field of their name | Props/Mail | mail provider: header automaton, boundary search (C18), parts; specification MimeSpec; witnesses | proved |
| C81 | Mails that are not multipart have one entry, the body | Props/Mail | mail provider: header automaton, boundary search (C18), parts; specification MimeSpec; witnesses | proved |
| C82 | A mail without an empty line has no entries | Props/Mail | mail provider: header automaton, boundary search (C18), parts; specification MimeSpec; witnesses | proved |
| C83 | Mails written as RFC 2046 says are taken apart again | Props/Mail | mail provider: header automaton, boundary search (C18), parts; specification MimeSpec; witnesses | proved |
| C84 | LF mails: the first line of a part is lost if it starts with a blank | Props/Mail | mail provider: header automaton, boundary search (C18), parts; specification MimeSpec; witnesses | proved |
| C85 | Quoted boundary followed by a blank | Props/Mail | mail provider: header automaton, boundary search (C18), parts; specification MimeSpec; witnesses | proved |
| C86 | A part that is cut off in its first line is dropped | Props/Mail | mail provider: header automaton, boundary search (C18), parts; specification MimeSpec; witnesses | proved |
| C87 | A complete listing shows every entry of the archive and of nested archives | Props/Listing | listing tree as finite maps, DirLister and ArchiveReader as state machines; induction on insertions, lockstep invariants; witnesses | proved |
| C88 | openStream opens the entry that the url leads to | Props/ArchiveReader | listing tree as finite maps, DirLister and ArchiveReader as state machines; induction on insertions, lockstep invariants; witnesses | proved |
| C89 | canHandle answers whether the longest existing part of the url is an archive | Props/ArchiveReader | listing tree as finite maps, DirLister and ArchiveReader as state machines; induction on insertions, lockstep invariants; witnesses | proved |
| C90 | stat and isArchive work after a cached archive has changed on disk | Props/ArchiveReader | listing tree as finite maps, DirLister and ArchiveReader as state machines; induction on insertions, lockstep invariants; witnesses | proved |
| C91 | stat finds exactly what a listing shows | Props/ArchiveReader | listing tree as finite maps, DirLister and ArchiveReader as state machines; induction on insertions, lockstep invariants; witnesses | proved |
| C92 | A listing lives as long as the DirListers that use it | Props/ArchiveReader | listing tree as finite maps, DirLister and ArchiveReader as state machines; induction on insertions, lockstep invariants; witnesses | proved |
| C93 | Assigning a DirLister makes it list what the other one lists | Props/ArchiveReader | listing tree as finite maps, DirLister and ArchiveReader as state machines; induction on insertions, lockstep invariants; witnesses | proved |
| C94 | A well-formed OLE file presents its streams | Props/Ole | OLE provider with checked arithmetic; decreasing measure on unused blocks, chain specification; witnesses | proved |
| C95 | No stream of an OLE file is missing | Props/Ole, OleExamples | OLE provider with checked arithmetic; decreasing measure on unused blocks, chain specification; witnesses | proved |
| C96 | An OLE file may end with any block | Props/Ole | OLE provider with checked arithmetic; decreasing measure on unused blocks, chain specification; witnesses | proved |
| C97 | The status tells a broken OLE file from an empty one | Props/Ole | OLE provider with checked arithmetic; decreasing measure on unused blocks, chain specification; witnesses | proved |
| C98 | An OLE provider can be destroyed at any time | Props/Ole | OLE provider with checked arithmetic; decreasing measure on unused blocks, chain specification; witnesses | proved |
| C99 | No OLE header causes undefined behaviour | Props/Ole | OLE provider with checked arithmetic; decreasing measure on unused blocks, chain specification; witnesses | proved |
| C100 | OLE files from inputs of unknown size are read safely | Props/Ole | OLE provider with checked arithmetic; decreasing measure on unused blocks, chain specification; witnesses | proved |
| C101 | Bytes that a pipe did not take are written later | Props/Process | ProcessInputStream against an arbitrary machine; traces of system calls | proved |
| C102 | The output of every program can be read | Props/Process | ProcessInputStream against an arbitrary machine; traces of system calls | proved |
| C103 | The output of a process is delivered exactly | Props/Process | ProcessInputStream against an arbitrary machine; traces of system calls | proved |
| C104 | The destructor of ProcessInputStream ends the child | Props/Process | ProcessInputStream against an arbitrary machine; traces of system calls | proved |
| C105 | Failures of the pipes are reported; the pipe is closed exactly once | Props/ProcessErrors | ProcessInputStream against an arbitrary machine; traces of system calls | proved |
| C106 | LZMAInputStream delivers the decompressed data | Props/Lzma | LZMAInputStream over an abstract decoder | proved |
| C107 | Unsupported LZMA headers are rejected | Props/Lzma | LZMAInputStream over an abstract decoder | proved |
| C108 | LZMAInputStream loses pending output at the end of the input | Props/Lzma | LZMAInputStream over an abstract decoder | proved |
| C109 | RPM files present the members of their payload | Props/Rpm | RPM provider over abstract decompressors; checked arithmetic | proved |
| C110 | RPM files with hostile numbers: undefined behaviour (negative result) | Props/Rpm | RPM provider over abstract decompressors; checked arithmetic | proved |
| C111 | RPM: the constructor is total on sane numbers | Props/Rpm | RPM provider over abstract decompressors; checked arithmetic | proved |
| C112 | The compressing stream is a stream over the compressed data | Props/GZipCompress | GZipCompressInputStream over an abstract compressor | proved |
| C113 | Compressing and decompressing gives the data back, but only in the zlib format | Props/GZipCompress | GZipCompressInputStream over an abstract compressor | proved |
| C114 | LZMAInputStream decompresses every LZMA file with end mark | Props/LzmaDec | LzmaDec.c function by function; simulation of the format (range coder, symbols, dictionary window, lookahead), then composition with C106 | proved |
| C115 | LZMAInputStream on data of known size | Props/LzmaDec, LzmaPending | LzmaDec.c function by function; simulation of the format (range coder, symbols, dictionary window, lookahead), then composition with C106 | proved |
| C116 | The LZMA decoder is safe and correct on arbitrary data | Props/LzmaDec | LzmaDec.c function by function; simulation of the format (range coder, symbols, dictionary window, lookahead), then composition with C106 | proved |
| C117 | LZMA parameters | Props/LzmaDec | LzmaDec.c function by function; simulation of the format (range coder, symbols, dictionary window, lookahead), then composition with C106 | proved |
| C118 | LZMAInputStream on arbitrary data without declared size | Props/LzmaAny | the same simulation for broken data; the format stands for finitely many bytes (decreasing weight of the range coder) | proved |
| C119 | LZMAInputStream on arbitrary data with declared size | Props/LzmaAny | the same simulation for broken data; the format stands for finitely many bytes (decreasing weight of the range coder) | proved |
| C120 | FileStreamOpener opens files and tells about them | Props/Opener | file system as a function of paths; C63; lists | proved |
| C121 | FileInputStream reports I/O errors and copes with files that change their size | Props/Opener | file with an I/O error behind its bytes, or with another reported size; contract of BufferedStream; unfolding | proved |
| C122 | SkippingFileInputStream: I/O errors and growing files | Props/Opener | file with an I/O error behind its bytes, or with another reported size; contract of BufferedStream; unfolding | proved |
| C123 | strcasecmp and strncasecmp replacements compare correctly | Props/Compat | induction on the strings | proved |
| C124 | strcasestr and isblank replacements | Props/Compat | induction on the strings | proved |
| C125 | ar reader is total on arbitrary bytes | Props/ArchiveSafe | inputs robust against any use; invariant of the provider over all calls (Visits); counterexamples by computation | proved |
| C126 | tar reader on arbitrary bytes | Props/ArchiveSafe | inputs robust against any use; invariant of the provider over all calls (Visits); counterexamples by computation | proved |
| C127 | cpio reader on arbitrary bytes | Props/ArchiveSafe | inputs robust against any use; invariant of the provider over all calls (Visits); counterexamples by computation | proved |
| C128 | input streams may be used in any way | Props/ArchiveSafe | inputs robust against any use; invariant of the provider over all calls (Visits); counterexamples by computation | proved |
| C129 | decompressing streams are total on arbitrary bytes | Props/UnpackSafe | streams whose content becomes known while being read (Growing); measure of bytes left and pending output; invariant of the provider over all calls | proved |
| C130 | zip reader on arbitrary bytes | Props/UnpackSafe | streams whose content becomes known while being read (Growing); measure of bytes left and pending output; invariant of the provider over all calls | proved |
| C131 | SD file reader is safe on arbitrary bytes | Props/SdfSafe | invariant of the provider over all calls (Visits) on robust inputs; measure of bytes left | proved |
| C132 | the mail reader is total on arbitrary bytes | Props/MailSafe | Proofs/PartSafe, Base64Safe, MailLineSafe, MailScanSafe, MailSafe: an invariant of the mail reader over any Robust input (Env); every function of the reader is shown to return and to keep it; TameBy/VisitsBy MildRead lift this to all clients; Proofs/RewindStreams gives the inputs. | proved |
| C133 | a maximum below the minimum | Props/MailSafe | short_any (Proofs/RobustStreams): the case of a short read without the condition on the maximum, on the invariants of the file streams; the exceptions by unfolding the model and the specification of the search. | proved |
| C134 | archives inside of archives, to any depth | Props/Nest | Proofs/Sturdy: a notion of stream that may be used in any way which, unlike Robust, is closed under substreams; Proofs/Robust (Nests), ArchiveSafe, ZipSafe, SdfSafe, UnpackSafe: each reader on a Sturdy stream preserves an invariant and presents Sturdy streams; Proofs/Nest: mutual induction over the client (Used, Session), induction over the depth (Open). The two necessary restrictions by evaluating the model. | proved |
| C135 | what is inside of stored entries is decided by the file | Props/Nest | induction over the depth; what a stored entry gives is what the stream below gives, what the file gives are slices of its content (Proofs/Within) | proved |
| C136 | an archive is presented exactly although readers are opened on its entries | Props/Isolate | Proofs/Isolate: the states of an entry stream that a client has used as in Presents are Sturdy (calls that the contract does not describe, such as a maximum below the minimum or a huge skip, do the same as legitimate ones), so by the induction of C134 whatever happens in inner readers leads to such a state again, from which Presents goes on; embedding of the three kinds of zip entries | proved |
| C137 | a cpio archive of which the end is missing shows its complete members and invents nothing | Props/Cut | Proofs/Cut (a SubInputStream on a parent that ends too early: the invariant is that all that is missing is missing in the parent), Proofs/CpioCut: PresentsThen by induction over the complete members, then one step of nextEntry for each position of the cut | proved |
| C138 | a tar archive of which the end is missing shows its complete entries and invents nothing | Props/TarCut | Proofs/TarCut: PresentsThen by induction over the complete entries, then one evaluation of parseHeader for each kind of remainder; the kinds of remainders that a cut can leave by induction over the archive | proved |
| C139 | an ar archive of which the end is missing shows its complete entries and invents nothing | Props/ArCut | Proofs/ArCut: PresentsThen by induction over the complete members, one evaluation of readHeader for each kind of remainder; the kinds of remainders by induction over the archive | proved |
| C140 | a read error below an archive is never taken for the end of the archive | Props/TellsErrors | `ErrorSpec`: `FailStop` inputs and `TellsErrors`, an invariant over all histories (`Reach`) of calls. Per reader a proof that every function keeps an error of the input, sets `Eof` only behind a successful read, and turns an error into `Error` (`Proofs/TellsErrors`: `Watch`). Inputs: `BufferedStream` over any producer. Mail: the defect for all failing inputs. | proved |
| C141 | a file that cannot be opened or mapped stays in error, unless skip() is called (negative result) | Props/MMapErrors | `Model/MMapErrors`: the class with a null buffer and an unknown size; equality with the model of C32 where nothing fails; direct evaluation of the sequences of calls otherwise, for all arguments. | proved |
| C142 | Memory of a buffered stream is bounded by the largest request, and its 32-bit numbers do not overflow below 2^30 | Props/Buffer32 | `Model/Buffer32`: the same functions with every 32-bit sum and product checked. `makeSpace` is characterised by its effect on the size; induction over histories (`Uses`) of calls. The overflow is a symbolic execution for all K. | proved |
| C143 | an LZMA stream may be used in any way on arbitrary bytes, at any depth of nesting | Props/LzmaSafe | `Proofs/LzmaBound`: every symbol uses up weight (bytes and range), so that a bound for the output follows by induction over the symbols. `Proofs/LzmaSafe`: `Emits` for the producer over any `Sturdy` input from C116 (each call of the decoder), then `BufferedStream.growing`; a further reader in `NestSpec`. | proved |
| C144 | an RPM reader may be used in any way on arbitrary bytes | Props/RpmSafe | `Proofs/RpmSafe`: the payload is a `Growing` stream in each of the three cases (C129, C143), so it may be used in any way; the constructor by evaluation over any `Sturdy` input; `Tame` of the cpio reader (C127) lifted to the provider. | proved |
| C145 | of a zip file of which the end is missing, exactly the members that are there are presented | Props/ZipCut | `Proofs/Doomed`: a buffered stream over a producer that can only go on or fail never says `Eof` (invariant over all uses); a decompressor over a strict beginning of its data is such a producer. `Proofs/ZipCut`: what leaving an entry leads to, after any use, also one that ended with an error; then the header, name and data cases by evaluation of `nextEntry` over any input. | proved |
| C146 | skip() with a negative number | Props/SkipNegative | Symbolic execution for all states; for the buffered streams induction on the items left, over any stream that satisfies `IsStream`. | proved |
| C147 | Converting from an encoding that holds back letters | Props/IconvState | Encodings with a state (`CharsetSpec`): C56 by the same invariant with the state of the converter added; the loss follows, for all inputs; the overflow by symbolic execution of three reads, for every encoding of the kind and every continuation. | proved |
| C148 | Encoded words of a mail header are converted independently of each other only as long as every word returns to the initial state | Props/HeaderConv | `Model/HeaderConv`: the decoding of headers with the converters that are kept; refinement to `decodedHeaderValue` with a function as the converter (loop by induction); induction over sequences of words with the invariant that all converters are in their initial state. | proved |
| C149 | The memory of the decompressors is used only while it exists, and given back exactly once | Props/Lifecycle | `Model/Lifecycle`: the four classes with the blocks of memory of their libraries, the constructors with failing allocations, and the destructors; that the memory changes nothing is a simulation (`Follows`) carried through `read`, `skip`, `reset` and all histories; what is owned is an invariant of `fillBuffer`; streams with an error never change. | proved |
| C150 | A stream that fails has a text in error() | Props/Messages | `Model/Messages`: the classes again with the member `m_error`; that it changes nothing is a simulation (`Follows`); that there is a text is an invariant of `fillBuffer` (`Speaks`) carried through `read`, `skip` and `reset` by induction on the loops; the cases without a text by symbolic execution for all states. | proved |
| C151 | An ArchiveReader used over time | Props/ReaderHistory | `Model/ReaderHistory`: the reader with its cache, its listings (numbered objects) and the `DirLister`s in the hands of the user; a history is a list of calls. Invariant `RInv` (cache = complete listings, listings = reachable states of the listing of the file, every `DirLister` has returned a part of what its entry shows) kept by every call, by induction on the history; pointers of other `DirLister`s are followed through each step of a listing (`watch`). The witnesses are runs. | proved |
| C152 | A listing goes through archives in archives and finds exactly what is in them | Props/SubStreams | `Model/SubStreams`: the checks for bz2, gzip and LZMA, the loop over the formats and the walk through all entries, over the models of the readers (streams of different types: continuations, `Use`). `Holds` (WalkSpec) says inductively what is in the bytes; the proof is by induction over it: each layer presents its contents and hands back a usable stream (`Nests`), the checks only look at the start (`Looks`). For single formats the round trips C36, C37, C41; `C152_example` is an `ar` in a compressed file in an `ar`. | proved |
| C153 | Looking into a file of any bytes never fails | Props/SubSafe | `walk` of `Model/SubStreams` (C152) on a stream that is only known to be robust. `Inside` (WalkSafeSpec) says inductively which streams can appear, `Fits` what is required where a reader is opened; each step of `walk` is a use of the stream in the sense of C134 (`Used`, `Session`), so that every call returns and the stream stays usable (`Harmless`), by induction on the structure of `walk`. That it ends (C153_unpack: layers of compression only; C153_ends: stored entries only) is proved with entries that are shorter than what they are part of (`Steady`, Proofs/SubEnds): the number of bytes bounds the depth and the number of rounds of each loop. Full statement: the same for all readers of the library, with termination in general. | partial |
| C154 | The streams of an ArchiveReader are deleted exactly once | Props/Ownership | Objects are numbers with the stream that they read from and the entry that they delete themselves (Model/Ownership); a deletion of a dead object, and a use of an object that is dead or reads from one that is, are faults. What is found in the files is a script (`Finds`, `Round`, `Probe`) that may be anything. Proof: a list of streams owns its members and their entries (`Own`); it can be deleted if nothing is owned twice (`Frees`), and used if all that is read from is owned (`Seg`); `subStreamProvider` and the loop of `positionedProvider` keep this for what they made (`Grow`); the lists of the open streams are disjoint (`Inv`), by induction over the calls. | proved |
| C155 | Entries of archives are deleted exactly once | Props/EntryOwnership | The pointers of each provider, and `nextEntry` and the destructors as operations on them, with an arbitrary script for what is in the file (Model/EntryOwnership). Proof: at any time the heap is what it was before plus one of five shapes (no entry; an entry; an entry that two pointers point to; one with one or two streams behind it), by induction over the requests; RPM with the provider of the cpio archive as an object of its own. | proved |
| C156 | Several StreamOpeners act as one | Props/Openers | The functions that go through the list of openers, and those that call them, for a list of openers (Model/Openers); what they do with the first opener that knows a url is in Model/ReaderHistory. The specification (OpenerSpec) says which opener is the one that acts as all of them. Proof: `open` is the first opener that opens (induction on the list), `localStat` asks the first that knows; for honest openers both are the same one; then the calls are equal, and the histories by induction, so that C151, C88 and C89 carry over. | proved |
| C157 | An in-memory stream made with a copy is independent of the original | Props/StringMemory | Memory as a list of blocks, the stream with a pointer into it (Model/StringMemory); the calls, and arbitrary functions on the memory that leave the block of the stream alone, in any order. Proof: refinement to the StringStream over a list (`Same`), by induction over the history; the pointers that were returned are kept, and their items are looked at in the last state. | proved |
| C158 | The pointer that read() returned can be used after reset() | Props/Pointers | PointerSpec: in which states which part of the stream is still where `read` said. `Pointers.read`: a read makes it so for what it returned; `Pointers.reset`: a reset into that part keeps it. For a BufferedStream the pointer is an index into the memory of the buffer and the items are compared with the memory (`StillThere`); the other streams, over any input that has the property, by case analysis on their functions, so the theorems compose. | proved |

## Partial results

C153: that looking into any file is safe is not proved for the readers of mails and RPM packages, and that it ends not for archives with compressed data.  C18 was partial: that every query is found is false of the code; now the queries that can be missed are described exactly.

## Defects of the code found on the way

Each is a theorem about the model; the property says which one: C04 (narrowing in `skip`), C10 (declared size 0 unchecked), C16, C22, C31 (two overloads), C33 (skip beyond the file), C34, C40 (over-read), C42
(DOS hours), C45/C47 (late directories), C52, C53, C54 (stack overrun), C56 (conversions of one character to several), C61, C62, C64, C65, C67–C69, C71–C78, C82, C84–C86, C90, C92, C93, C95–C102, C104, C108, C110,
C113, C115 (a valid file of known size that cannot be read to its end), C121 and C122 (I/O errors hidden), C126 (long names), C128 and C133 (unusual arguments), C140 (mails hide read errors), C141 (`skip` hides a failed `mmap`), C142 (doubling a buffer of 1 GB overflows), C145 (zip files that are cut off behind or in a deflated member are reported as complete), C146 (`skip` with a negative number), C147 (letters held back by an encoding: lost, or a write outside of a buffer), C148 (converters of a mail are not reset), C149 (a `BZ2InputStream` on something else is destroyed with memory that was never written; no decompressor but LZMA survives a lack of memory), C150 (bz2 and LZMA data that is cut off: an error without a text), C151 (an `ArchiveReader`: a null pointer is followed if a `DirLister` is first used after its listing was collected; listings and cached archives that never notice a change of the file; a tree deleted under a `DirLister`), C152 (which format a file is taken for can depend on the addresses of functions; LZMA is looked for in two bytes; empty streams are opened as mails; the body of a mail is listed with an unknown size), C154 (streams that a `StreamOpener` opened directly are not deleted with the `ArchiveReader`, although the documentation says so), C155 (an `OleInputStream` that is deleted while it is at an entry deletes the entry twice), C157 (signed overflow for texts near 2^31 items), C156 (of a file that the first opener knows but cannot open, `canHandle` says that it is no archive although a later opener opens it and its entries are listed).
