import json,re,glob
old=open('/verif/DESIGN.md').read()
head='''# Formal model of KDE/libstreams in Lean 4 — design

## Approach

`/repo` is read as text; every model definition cites the file and lines it models.  Streams become
state machines: `read/skip/reset : State → args → Res (State × result)`.  `Res` has three outcomes:
`ok`, `fault f` (assertion failure, out-of-bounds access, other undefined behaviour: kept as a
distinct outcome, never assumed away) and `diverge` (a loop that would not end).

* `Verif/Base.lean`       – `Res`, `Fault`, `Status`, 32-bit narrowing, helper lemmas on lists.
* `Verif/Spec.lean`, `Verif/Contract.lean` – the stream interface (`StreamOps`), the documented contract of
  `StreamBase` (`include/strigi/streambase.h`) as a relation on call/return pairs (`ReadOk`, `SkipOk`, `ResetOk`), its
  closure over arbitrary call sequences (`IsStream ops c F soft s`: from state `s` the stream behaves as a stream over the
  items `c`; `F` says which calls may fail; `soft`: any reset is tolerated).
* `Verif/*Spec.lean`, `Verif/LzmaFormat.lean` – the other specifications (formats, what a correct compressor is, …); they mention no model
  helper.
* `Verif/Model/*.lean`    – the model, one file per source file (or group of small ones).
* `Verif/Proofs/*.lean`   – helper lemmas, invariants.
* `Verif/Props/*.lean`    – the property theorems, each with a non-vacuity `example` or a concrete instance.

Integers are unbounded `Int`/`Nat`, except where narrowing or overflow matters (then the explicit cast is modelled by
`Int.bmod`/`BitVec`/reduction modulo 2^32, or a signed overflow is a fault).  Loops carry fuel; theorems hold for all sufficiently large
fuel (an explicit bound), so that the fuel never is the reason for a result; running out of it is `diverge`.

A property that turned out to be false of the code is kept in the list as the true statement about the code, with a
theorem that exhibits the violation ("negative result", "refuted claim").

## Trusted base

* Lean's kernel (4.33.0).  `vcheck` replays all modules with the kernel.  No `native_decide`, `bv_decide`, axioms of our own, or unfinished proofs.
* Axioms: every theorem depends on at most `propext`, `Classical.choice` and `Quot.sound`.  The list per theorem is in
  `AXIOMS.md` (generated with `#print axioms`).
* That the model says what the C++ says: by reading.  The mutation log (`seeded/LOG.jsonl`) shows that the theorems notice wrong edits
  of the model; it cannot show that the model is right.
* The specifications: `Spec`, `Contract`, `ProducerSpec` (documentation of `fillBuffer`), `SearchSpec` (first occurrence), `EventSpec`, `Base64Spec`,
  `TextSpec` (UTF-8, numbers), `ArchiveSpec` (what a client may do with an archive: `Presents`), `CpioSpec`, `ArSpec`, `TarSpec`, `ZipSpec`,
  `RpmSpec`, `OleSpec`, `SdfSpec`, `MailSpec`, `MimeSpec` (the formats), `DecompressSpec` (`Unpacks`), `CompressSpec` (`Packs`), `CharsetSpec` (`Lawful`),
  `ListingSpec`, `SafetySpec`, `ProcessSpec`, `TraceSpec`, `LzmaSpec`, `LzmaFormat`.
* `decide +kernel` is used for concrete data only (examples, witnesses of violations): it is evaluated by the kernel.

## What is modelled

| source | model | left out |
|---|---|---|
| include/strigi/streambase.h (`skip`) | Model/BaseSkip | `error()` strings (everywhere) |
| include/strigi/stringstream.h | Model/StringStream, Model/StringMemory (pointers) | |
| include/strigi/streambuffer.h, bufferedstream.h | Model/BufferedStream, Model/Buffer32 (32-bit numbers: C142) | `realloc` failure |
| lib/subinputstream.cpp | Model/SubInputStream | |
| lib/fileinputstream.cpp, mmapfileinputstream.cpp, skippingfileinputstream(2).cpp, skippingbufferedstream.h, filereader.h | Model/FileStreams | errors of `fopen`/`stat`/`mmap` beyond "cannot be opened"; files that change while they are read |
| lib/kmpsearcher.cpp | Model/Kmp | |
| lib/stringterminatedsubstream.cpp | Model/StringTerminated | |
| lib/dataeventinputstream.cpp, signatureinputstream.cpp | Model/DataEvent, Model/Signature | |
| lib/base64inputstream.cpp | Model/Base64 | |
| lib/textutils.cpp, include/strigi/textutils.h, dostime.cpp | Model/TextUtils | `mktime` (a parameter) |
| lib/gzipinputstream.cpp, bz2inputstream.cpp | Model/Decompress, Model/Lifecycle, Model/Messages, Model/Magic | zlib and libbz2 are an abstract `Decompressor` with `Unpacks` |
| lib/gzipcompressstream.cpp | Model/GZipCompress, Model/Lifecycle, Model/Messages | deflate is an abstract `Compressor` with `Packs`; codes other than `Z_OK`/`Z_STREAM_END` |
| lib/lzmainputstream.cpp | Model/LzmaStream, Model/Lifecycle, Model/Messages, Model/Magic | |
| lib/lzma/LzmaDec.c | Model/LzmaDec | `malloc`/`free`; `LzmaDecode` (not called) |
| lib/encodinginputstream.cpp, inputstreamreader.cpp | Model/Iconv | iconv is a `Charset` (with a state); `errno` other than `EILSEQ`, `EINVAL`, `E2BIG` |
| lib/tarinputstream.cpp, arinputstream.cpp, cpioinputstream.cpp, zipinputstream.cpp, sdfinputstream.cpp, rpminputstream.cpp | Model/Tar, Ar, Cpio, Zip, Sdf, Rpm, CLib | RPM: after a rejection the input is not tracked |
| lib/mailinputstream.cpp | Model/MailText, Model/HeaderConv, Model/Mail | lines of 2^20 bytes and more; input that does not start at position 0 |
| lib/oleinputstream.cpp | Model/Ole | inputs of unknown size only as C100 |
| lib/processinputstream.cpp | Model/Process | `fork`/`exec`; the child and the system are an arbitrary machine that answers the system calls |
| lib/substreamproviderprovider.cpp, include/strigi/substreamprovider.h | Model/Sniff | the order of the candidates (it depends on addresses of functions) |
| lib/listinginprogress.cpp, archiveentrycache.cpp | Model/Listing, Model/SubStreams | in Model/Listing substream providers are abstracted as `Contents`; Model/SubStreams computes these from the bytes (`subStreamProvider`); `used` flags of providers and `mimetype` are left out |
| lib/archivereader.cpp | Model/DirLister, Model/ArchiveReader, Model/ReaderHistory, Model/Openers (several openers), Model/Ownership (who deletes the streams), Model/EntryOwnership (the providers) | what a failing `stat` of an opener writes is not looked at; pointers of `DirLister`s as path or orphan; copying of `Private` as far as C92/C93 need |
| lib/filestreamopener.cpp | Model/Opener | `fopen`/`stat` as functions of the path |
| lib/compat.cpp | Model/Compat | only compiled where the platform lacks the functions; `setenv`, `mkstemp`; `tolower` of negative values |
| lib/strigiconfig.cpp, CMake files, tests | – | everything (version strings, build) |

Not expressible in this model: failure of memory allocation, pointer validity beyond buffer bounds (except where a theorem is about it: C92, C98),
threads (the library has none), the internals of zlib, libbz2, iconv, `mktime`.

Assumptions that several theorems share: inputs of archives do not fail (`Failure.never`) unless the theorem says so; contents are shorter than 2^31 bytes where positions are
narrowed to 32 bits by the code; `read` is called with `1 ≤ min` and (`max = 0` or `min ≤ max`), `skip` with `0 ≤ k < 2^31`, as the documentation demands; safety theorems
(`SafetySpec`) drop these assumptions.

## Plan per property

'''
m={c['property']:c for c in json.load(open('/verif/MANIFEST.json'))['claims']}
where={}
for f in glob.glob('/verif/lean/Verif/Props/*.lean'):
    for t in re.findall(r'^theorem (\S+)',open(f).read(),re.M): where['Strigi.Props.'+t]=f.split('/')[-1][:-5]
how=json.load(open('/verif/tools/how.json'))
rows=['| id | property | theorems in | how it is modelled and proved | status |','|---|---|---|---|---|']
def group(i):
    for k,v in how.items():
        for part in k.split(','):
            a,_,b=part.partition('-'); b=b or a
            if int(a)<=i<=int(b): return v
    return ''
for l in open('/verif/properties.jsonl'):
    p=json.loads(l); c=m[p['id']]
    fs=sorted({where.get(t,'?') for t in c['theorems']})
    rows.append(f"| {p['id']} | {p['title']} | Props/{', '.join(fs)} | {group(int(p['id'][1:]))} | {c['status']} |")
tail=open('/verif/tools/design_tail.md').read()
open('/verif/DESIGN.md','w').write(head+'\n'.join(rows)+'\n\n'+tail)
