#!/usr/bin/env python3
"""Generates /verif/properties.jsonl. Append new properties at the end."""
import json, os
P = []
def p(title, statement, quantifier, why, *anchors):
    P.append(dict(id="C%02d" % (len(P)+1), title=title, statement=statement,
                  quantifier=quantifier, why_tests_cant=why, anchors=list(anchors)))

SB="include/strigi/streambase.h"; BS="include/strigi/bufferedstream.h"; BUF="include/strigi/streambuffer.h"
SS="include/strigi/stringstream.h"

p("In-memory stream returns exactly the source items at the reported positions",
  "For a StringStream over n items, after any sequence of read/skip/reset calls, every read that returns k>0 hands out exactly the k source items that start at the position reported before the call, and position() grows by k.",
  "every source sequence, every finite sequence of read(min,max)/skip/reset calls",
  "the call sequences are unbounded and the content arbitrary; tests run three fixed scripts on two literals",
  SS+": StringStream::read, StringStream::skip, StringStream::reset")
p("read() respects max and min on the in-memory stream",
  "read(min,max) with 1<=min<=max returns at most max items and at least min items unless the end of the stream is hit; it returns -1 exactly when the position is already at the end. (With max<min the documented 'no limit' is not honoured by StringStream: it may return fewer than min items although more are left.)",
  "every content, position and every pair (min,max)",
  "boundary behaviour depends on the relation of four integers",
  SB+": StreamBase::read (contract)", SS+": StringStream::read")
p("reset() on the in-memory stream reaches every position and clamps the rest",
  "reset(p) moves to p for 0<=p<=size, to 0 for p<0, to size for p>size, returns the resulting position, and the status is Eof exactly when the resulting position is the end.",
  "every content and every target position after every history",
  "the claim is about all histories",
  SS+": StringStream::reset")
p("skip() on the in-memory stream skips exactly min(n, remaining) items",
  "skip(n) for 0<=n<2^31 advances by min(n, remaining) and returns the number skipped (-1 when already at the end and n>0). For n>=2^31 the 32-bit narrowing makes it skip a different amount.",
  "every content, position and n",
  "narrowing only shows for arguments no test uses",
  SS+": StringStream::skip")
p("Default StreamBase::skip is the iteration of read and never overshoots",
  "The inherited skip(n) on any stream that honours the read contract advances by exactly min(n, remaining), in steps of at most 10000000 items, and returns an error code if read fails.",
  "every contract-respecting stream, every n, any amount returned by the individual reads",
  "the number of iterations and the size of each short read are unbounded",
  SB+": StreamBase<T>::skip")
p("Buffered stream delivers the producer's items in order, none lost or duplicated",
  "For any producer (fillBuffer) that emits its content in arbitrary chunks, every read(min,max) on a BufferedStream returns the items of the produced content starting at position(), for every interleaving of read, skip and reset.",
  "every content, every chunking chosen by the producer, every sequence of read/skip/reset",
  "chunkings and op sequences are infinite families",
  BS+": BufferedStream::read, writeToBuffer, reset, skip", BUF+": StreamBuffer::makeSpace, setSize, read")
p("Buffered stream: read size limits",
  "read(min,max) with 1<=min<=max returns at most max items, and at least min items unless the stream ends or fails; -1 is returned only when no items are left.",
  "every producer, buffer state and (min,max)",
  "depends on the state of buffer, producer and arguments together",
  BS+": BufferedStream::read, writeToBuffer")
p("Buffered stream: rewinding to the start of the last read always succeeds and rereads the same items",
  "After pos=position(); n=read(min,max)>0, reset(q) for every pos<=q<=pos+n returns q, sets the status to Ok, and does not move or change the memory the read pointer refers to; the following read returns the items from q on again.",
  "every producer, every history before the read, every q in the segment",
  "must hold after any history of buffer moves and reallocations",
  BS+": BufferedStream::reset, read", BUF+": StreamBuffer::makeSpace")
p("Buffered stream never violates its assertions nor writes outside its buffer",
  "In every reachable state 0<=offset, 0<=avail, offset+avail<=size hold, makeSpace returns at least the requested space and exactly the writable space (or less), and a producer that respects its space argument never writes outside the allocated memory.",
  "every history of reads, skips and resets and every request size",
  "memory safety of pointer arithmetic over all histories",
  BUF+": StreamBuffer::makeSpace, setSize, read", BS+": BufferedStream::writeToBuffer")
p("Buffered stream: longer-than-declared data is reported as an error",
  "If a size was declared in advance and the producer emits more, then the read whose result would pass the declared size returns -2 and status() becomes Error, and all later reads return -2; no read ever returns data past the declared size.",
  "every producer and declared size > 0",
  "depends on when the excess bytes arrive",
  BS+": BufferedStream::read")
p("Buffered stream: at Eof the size is known and equals the number of items produced",
  "When status() is Eof after reading, and no size was declared, size() equals position() equals the number of items the producer emitted; size() stays constant afterwards.",
  "every producer and history",
  "all histories", BS+": BufferedStream::read", SB+": StreamBaseBase::size")
p("Buffered stream: error is sticky",
  "After a read returned -2 every later read and reset returns -2 and the status stays Error.",
  "every stream and every later op sequence", "liveness over all continuations",
  BS+": BufferedStream::read, reset")
p("Buffered skip advances exactly min(n, remaining)",
  "skip(n), n>=0, on a healthy BufferedStream without declared-size excess advances by exactly min(n, remaining items) and returns that amount, whatever the buffer size (including a not yet allocated buffer).",
  "every producer, buffer state and n", "loop over unboundedly many short reads",
  BS+": BufferedStream::skip")
p("SubInputStream exposes exactly a window of its parent",
  "A SubInputStream created at parent position o with size l delivers, for every sequence of reads, skips and resets within [0,l], exactly the parent's items o+position(), never an item outside [o,o+l), and position() is the parent's position minus o.",
  "every parent obeying the stream contract, every o, l and op sequence",
  "op sequences and parents are infinite families",
  "lib/subinputstream.cpp: SubInputStream::read, reset, skip", "include/strigi/subinputstream.h")
p("SubInputStream reports a too short parent as an error",
  "If the parent ends before the declared size of the substream, then the read that hits the end returns -2 with status Error; it never returns a short success.",
  "every parent, declared size, and read sizes", "depends on where parent ends relative to request",
  "lib/subinputstream.cpp: SubInputStream::read")
p("Resetting a SubInputStream past its end breaks the window",
  "'It will prevent data being read past a certain point' fails after reset(p) with p>size: the next read asks the parent for a negative amount; the parent hands out items outside of the window, and only an assertion stops them (they leak in NDEBUG builds). The window property holds for all histories whose reset targets are <= size.",
  "every history with a reset beyond the size (witness) / every history without (proved)",
  "tests never reset past the end", "lib/subinputstream.cpp: SubInputStream::reset, read")
p("Nested substreams compose",
  "A substream of a substream of s behaves like one substream of s with the offsets added and the sizes intersected.",
  "every nesting, every op sequence", "unbounded nesting",
  "lib/subinputstream.cpp: SubInputStream")
p("String search returns the first occurrence",
  "KmpSearcher(query).search(hay,len) for a non-empty query returns only indexes at which query occurs in the first len bytes of hay. It returns the smallest such index, and null exactly when there is none, in every haystack, exactly for the queries that do not slip: a query slips if it has a border and an inner period that let the turbo shift of the algorithm jump too far (an explicit, decidable condition; SearchSpec.Slips). Queries without a border of three or more bytes and queries that repeat one byte do not slip; baacabaa does: searching it in aaaacbaabaacabaa returns null. A query that slips is missed in a haystack of at most twice its length, so a query that is always found in those is found in all.",
  "every non-empty query and every haystack of every length",
  "Turbo-Boyer-Moore shift tables have input-dependent corner cases; tests use a handful of strings",
  "lib/kmpsearcher.cpp: preBmBc, suffixes, preBmGs, KmpSearcher::setQuery, KmpSearcher::search")
p("String search never reads or writes outside its tables and inputs",
  "For every non-empty query, building the tables and searching any haystack accesses only valid indexes of query, haystack and tables, and the search terminates. For the empty query setQuery writes before the start of an array.",
  "every query and haystack", "memory safety on all inputs",
  "lib/kmpsearcher.cpp: suffixes, preBmGs, search")
p("A terminated substream delivers exactly the bytes before the first terminator",
  "StringTerminatedSubStream over a parent with remaining data d and non-empty terminator t delivers, for every sequence of reads with min>=1, the part of d before the first occurrence of t (all of d when t does not occur), even when the terminator spans two reads.",
  "every data, terminator, and sequence of (min,max) with min>=1",
  "the terminator may straddle any read boundary",
  "lib/stringterminatedsubstream.cpp: StringTerminatedSubStream::read")
p("A terminated substream leaves the parent right after the terminator",
  "When the terminator has been found, the parent is positioned exactly after it, the substream's status is Eof and size() is the number of bytes before the terminator.",
  "every data, terminator, and read sequence", "same",
  "lib/stringterminatedsubstream.cpp: StringTerminatedSubStream::read")
p("A terminated substream read with the default arguments may run past the terminator",
  "read(start) with the declared default arguments min=0,max=0 on a parent at position 0 returns data past the terminator (the property C20 fails for min=0).",
  "witness", "tests always pass min>=1",
  "lib/stringterminatedsubstream.cpp: read", "include/strigi/stringterminatedsubstream.h: read default arguments")
p("Data events cover every byte exactly once and in order",
  "DataEventInputStream: for every sequence of read, skip and reset, the concatenation of all handleData events is a prefix of the stream content whose length is the furthest position reached, as long as the handler wants more; rereading after reset emits nothing twice; after the handler declines no further data is sent.",
  "every content, every handler (deciding from all it has seen), every op sequence",
  "all interleavings of rewinds and reads",
  "lib/dataeventinputstream.cpp: read, skip, reset", "include/strigi/dataeventinputstream.h")
p("handleEnd is called at most once, and only after all data was delivered",
  "handleEnd is called at most once; when it is called every byte of the stream was passed to handleData (unless the handler declined).",
  "every content, handler and op sequence", "all histories",
  "lib/dataeventinputstream.cpp: read, finish")
p("Base64 streaming decode inverts encoding",
  "Decoding the RFC 2045 base64 encoding of any byte string with Base64InputStream yields the byte string, even with line breaks or other non-alphabet bytes interspersed, for every chunking of the input stream and every sequence of output buffer sizes.",
  "every byte string, interspersed noise, chunking and buffer size",
  "chunk boundaries cut the 4-character groups at every position",
  "lib/base64inputstream.cpp: Private::fillBuffer, moreData")
p("Base64 stream output does not depend on chunking",
  "The bytes produced by Base64InputStream::fillBuffer are a function of the input bytes only, not of how the input is chunked nor of how much space each call offers.",
  "every input (valid or not), every chunking and space sequence", "as above",
  "lib/base64inputstream.cpp: Private::fillBuffer")
p("One-shot base64 decode inverts encoding and rejects malformed text",
  "Base64InputStream::decode(encode(b)) = b for every non-empty b; the result is empty when the length is no multiple of 4 or a non-alphabet character occurs outside the padding. It reads before its buffer for length 0.",
  "every byte string / every text", "infinite input space",
  "lib/base64inputstream.cpp: Base64InputStream::decode")
p("checkUtf8 accepts every well-formed XML text and what else it accepts is characterised",
  "checkUtf8 returns true for the UTF-8 encoding of every sequence of XML-allowed characters below U+110000 (minus noncharacters FFFE/FFFF), and returns true exactly for the concatenations of the byte patterns described by the specification; it is not a UTF-8 validator: overlong 3- and 4-byte forms and values above U+10FFFF pass.",
  "every byte string", "infinite input space",
  "lib/textutils.cpp: Strigi::checkUtf8(const char*, int32_t)")
p("The position-reporting checkUtf8 agrees with the boolean one",
  "checkUtf8(p,len,nb) returns null exactly when checkUtf8(p,len) is true; otherwise the reported position is inside the buffer, everything before the start of the reported character is valid, nb is the number of missing bytes when the text merely ends early and 0 on an error.",
  "every byte string", "infinite input space",
  "lib/textutils.cpp: Strigi::checkUtf8(const char*, int32_t, char&)")
p("convertNewLines only replaces line breaks by spaces",
  "convertNewLines keeps the length, changes no byte other than CR and LF, and on text accepted by checkUtf8 leaves no CR or LF.",
  "every byte string", "infinite input space", "lib/textutils.cpp: convertNewLines")
p("Endian readers decode the byte order they claim",
  "readLittleEndian*/readBigEndian* of width 16/32/64, signed and unsigned, return the integer whose byte representation in that order is the given bytes. The unsigned char* overloads of the 64-bit signed readers do not: they decode only 16 bits.",
  "every byte sequence", "2^64 inputs",
  "include/strigi/textutils.h", "lib/textutils.cpp: swap16, swap32, swap64")
p("Memory-mapped file stream honours the read/reset/skip contract",
  "For a file of n>0 bytes reads return exactly the file's bytes at position(), reset clamps, and skip(n>=0) advances by min(n, remaining).",
  "every file content and op sequence", "all histories",
  "lib/mmapfileinputstream.cpp: read, skip, reset")
p("Unbuffered file stream returns the file's bytes at the reported position",
  "SkippingFileInputStream: every read after any seek history returns the bytes at the previous position(), at least min of them unless the file ends; reset clamps to the size; reading at the end returns 0 (not -1).",
  "every content and op sequence", "all histories",
  "lib/skippingfileinputstream.cpp: read, skip, reset")
p("SkippingBufferedStream can hand out wrong bytes after skip and reset",
  "After a skip that exhausts the buffer, reset to an earlier position reports success but the following read returns bytes of a different position.",
  "witness history", "tests do not reset after a long skip",
  "lib/skippingbufferedstream.h: SkippingBufferedStream::skip, reset")
p("Tar: iteration is independent of how much of each entry is read",
  "TarInputStream::nextEntry yields the same sequence of (name,size,mtime,type,content) whatever part of the entry streams the client reads, skips or rewinds before asking for the next one.",
  "every archive and every consumption pattern", "consumption patterns are unbounded",
  "lib/tarinputstream.cpp: nextEntry, parseHeader")
p("Tar: reading back what was written",
  "For every list of entries with non-empty plain names (<100 bytes) and contents, serialised in ustar layout with at least three zero blocks, iteration yields exactly these entries in order and then ends.",
  "every list of entries", "unbounded archives", "lib/tarinputstream.cpp: nextEntry, parseHeader, readOctalField")
p("Ar: reading back what was written",
  "For every list of entries with short names, serialised in ar layout, iteration yields exactly these entries in order and then Eof, independent of consumption.",
  "every list of entries and consumption pattern", "unbounded archives",
  "lib/arinputstream.cpp: nextEntry, readHeader")
p("Cpio: reading back what was written",
  "For every list of entries serialised in the newc layout followed by the trailer, iteration yields exactly these entries in order and then Eof, independent of consumption.",
  "every list of entries and consumption pattern", "unbounded archives",
  "lib/cpioinputstream.cpp: nextEntry, readHeader, readHexField")
p("Cpio hex fields decode to the number they encode",
  "readHexField of the 8 hex digits (upper or lower case) of n<2^31 is n.",
  "every n", "2^31 values", "lib/cpioinputstream.cpp: readHexField")
p("Cpio name parsing may read past the name buffer",
  "For a name field that starts with './' and lacks a NUL, the name scan reads beyond the bytes that were read from the stream; with a NUL inside the field no such read occurs.",
  "every header", "crafted input only",
  "lib/cpioinputstream.cpp: readHeader")
p("Zip: stored entries read back",
  "For every list of zip members (stored; deflated with the sizes in the header; deflated with the sizes in a data descriptor behind the data) followed by a central directory, iteration yields exactly these names (a final slash marks directories), sizes (-1 if not in the header), modification times and contents in order and then Eof, independent of consumption. zlib is assumed to inflate correctly.",
  "every list of entries and consumption pattern", "unbounded archives",
  "lib/zipinputstream.cpp: nextEntry, readHeader, readFileName")
p("DOS time decoding loses the afternoon",
  "dos2unixtime decodes year, month, day, minute and second of the DOS format exactly, but the hour is taken modulo 16: hours 16..23 are decoded wrongly.",
  "every encoded time", "2^32 values", "lib/dostime.cpp: dos2unixtime")
p("Quoted-printable decoding inverts encoding",
  "decodeQuotedPrintable(encodeQ(b)) = b for every byte string b and every way of choosing which bytes are escaped; bytes that do not start a valid escape and are not '_' are copied.",
  "every byte string and escape choice", "infinite input space",
  "lib/mailinputstream.cpp: decodeHex, decodeQuotedPrintable")
p("Mail header check accepts exactly prefixes of well-formed header blocks",
  "MailInputStream::checkHeader(d) is true exactly when d is a prefix of: header lines 'name: value' with printable name and 7-bit value incl. folding, blank line, 7-bit body. In particular it is prefix-closed and rejects any byte >= 128.",
  "every byte string", "infinite input space",
  "lib/mailinputstream.cpp: MailInputStream::checkHeader")
p("Archive listing cache finds exactly what was added",
  "After any sequence of adding entries to a listing tree, looking up a path returns the last entry added with that path, unless an entry was added later at a directory above it (which hides it); intermediate directories exist; a lookup of a path nothing was added at or below returns nothing.",
  "every sequence of insertions and every path", "all histories",
  "lib/listinginprogress.cpp: addEntry", "lib/archiveentrycache.cpp: findEntry, findRootEntry")
p("The cache root lookup picks the longest cached ancestor",
  "findRootEntry(url) returns the cached key that equals url or is the longest prefix of url ending before a '/', and nothing if there is none.",
  "every cache and url", "all inputs", "lib/archiveentrycache.cpp: findRootEntry")
p("DirLister lists every entry exactly once",
  "Iterating a DirLister over a growing listing returns each child name exactly once, including those discovered while iterating, and terminates with false afterwards for good. (Refuted for a directory that the archive itself mentions after something in it: the lister keeps the old directory.)",
  "every growth schedule", "interleavings of discovery and iteration",
  "lib/archivereader.cpp: DirLister::Private::nextEntry")
p("OLE block chains are followed at most once per block",
  "Whatever the file contains (cyclic chains included), the constructor, nextEntry() and all calls on the entry streams return, and nextEntry() returns at most four streams per block of the file (plus three), in any sequence of calls.",
  "every file", "crafted cyclic files", "lib/oleinputstream.cpp: nextBlock, nextSmallBlock, nextEntry")
p("OLE files of any content are read without leaving the file image",
  "For an input of known size: whatever the file contains and in whatever order a client calls nextEntry() and the functions of the entry streams, no call reads outside of the file image or of the tables, and no assertion fails. (Signed overflow remains possible, see C99; inputs of unknown size: C100.)",
  "every file and read sequence", "crafted files",
  "lib/oleinputstream.cpp: OleEntryStream::fillBuffer, getCurrentSmallBlock")
p("SDF line skipping",
  "skip80Line returns the start of the next line exactly when the current line ends (LF, CR or CRLF) within its first 81 bytes and something follows it inside the buffer; SdfInputStream::checkHeader is true exactly when the fourth line contains V2000.",
  "every buffer", "all inputs", "lib/sdfinputstream.cpp: skip80Line, checkHeader")
p("SDF entries",
  "SdfInputStream splits its input at '$$$$': entry i is the text between delimiters (without the line breaks after them), independent of how the entries are read. (Fails in one respect, which the proved statement describes: from the second record on the first character after the line breaks is lost as well.)",
  "every input", "all inputs, delimiters straddling reads",
  "lib/sdfinputstream.cpp: nextEntry")
p("Process input delivery",
  "All bytes of the input stream are written to the child's standard input, in order. (Refuted: the bytes that the input returns together with its end are dropped - of a stream in memory the child receives nothing. Proved: apart from them the child receives everything, in order; and all of it if the input reports its end separately.)",
  "every input chunking and every pipe behaviour", "needs adversarial pipe schedules",
  "lib/processinputstream.cpp: writeToPipe")
p("isArchive answers true for every existing file",
  "isArchive(url) should be true only for files that are also directories; it is true for every url whose type is File or Dir.",
  "every entry type", "depends on type algebra", "lib/archivereader.cpp: ArchiveReader::isArchive", "include/strigi/archivereader.h")
p("Listing nested archives deeper than the stack overruns it",
  "ListingInProgress::nextEntry(depth) only accesses existing stack slots. (Fails at depth 9: resize keeps 10 slots, slot 10 is accessed.)",
  "every nesting depth", "needs 10-fold nested archives", "lib/listinginprogress.cpp: ListingInProgress::nextEntry(int)")
p("Decompression streams emit exactly the decompressor's output and reposition the input",
  "GZip/BZ2InputStream with any chunking emit the concatenation of what the decompressor writes and, at its end, leave the input positioned at the first byte the decompressor did not consume.",
  "every input, chunking and decompressor behaviour", "all chunkings",
  "lib/gzipinputstream.cpp: fillBuffer, readFromStream", "lib/bz2inputstream.cpp: fillBuffer")
p("Character set conversion does not depend on chunking",
  "InputStreamReader/EncodingInputStream emit the conversion of the whole input, whatever the input chunking and output space, for any converter (with or without a state, as the byte order of UTF-16) that turns a character into at most one output item and holds nothing back; invalid sequences and input ending inside a character are reported as an error and never as the end of the stream. (For conversions that turn one character into several items, as EncodingInputStream does for UTF-8 output, it is refuted: the stream hands out unwritten memory.)",
  "every input, chunking and output space", "multi-byte characters straddle buffers at every position",
  "lib/inputstreamreader.cpp: decode, fillBuffer", "lib/encodinginputstream.cpp")
p("Signature stream is transparent",
  "SignatureInputStream returns exactly what its input returns and mirrors status, position and size after every call.",
  "every input stream and op sequence", "all histories", "lib/signatureinputstream.cpp")
p("Format sniffing leaves the stream where it was",
  "SubStreamProviderProvider::subStreamProvider restores the position of the input before deciding, for every contract-respecting input.",
  "every input and position", "all states", "lib/substreamproviderprovider.cpp: subStreamProvider")
p("Header magic checks are exact",
  "checkHeader of gzip, bz2, zip, ar, cpio, rpm and ole is true exactly when enough bytes are given and they start with the format's magic; it never reads beyond datasize; for tar, which has no magic, it is true exactly when the bytes may be a header (name filled up with NULs, numeric fields terminated, not all NUL).",
  "every buffer", "all inputs",
  "lib/gzipinputstream.cpp: checkHeader", "lib/bz2inputstream.cpp: checkHeader", "lib/zipinputstream.cpp: checkHeader",
  "lib/arinputstream.cpp: checkHeader", "lib/cpioinputstream.cpp: checkHeader", "lib/rpminputstream.cpp: checkHeader", "lib/oleinputstream.cpp: checkHeader")
p("Mail header lines are split where header lines end",
  "The mail header line reader splits the header block at every line break (LF, CR or CRLF) not followed by white space, never in the middle of a line, and the start of the next line is the byte after the break; the result does not depend on how the input is chunked.",
  "every input and chunking", "line breaks straddle reads",
  "lib/mailinputstream.cpp: readHeaderLine")
p("Substream size is known at Eof",
  "'The size of the stream is always known if the end of the stream has been reached.' Fails for SubInputStream without declared size and for StringTerminatedSubStream when the end is detected by a read that returns -1: status is Eof and size() is -1.",
  "every history", "needs reads that end exactly at the boundary",
  "lib/subinputstream.cpp: read", "lib/stringterminatedsubstream.cpp: read", SB+": size")
p("Skipping in an empty substream of unknown size moves before its start",
  "position() of a stream is never negative after construction. Fails for a SubInputStream of unknown size over an exhausted parent: skip(n), n>0, leaves position() = -1 with status Eof.",
  "every parent whose content ends at the substream's start", "needs an empty window at the end of the parent",
  "lib/subinputstream.cpp: skip, read")
p("Buffered file stream delivers the file whatever the buffer size and reported size",
  "FileInputStream over a readable file delivers exactly the bytes of the file, for every buffer size, also when the system reports size 0 for a non-empty file or the file is not seekable.",
  "every file content, buffer size and history of calls", "all sizes around the buffer size and special files",
  "lib/fileinputstream.cpp: open, fillBuffer")
p("A terminated substream beyond two gigabytes ignores its terminator",
  "The bytes delivered by a StringTerminatedSubStream do not depend on where in the parent it starts. Fails when it is created at a parent position between 2^31 and 2^32: the first read delivers the parent's data, terminator included, without searching.",
  "every parent, terminator, position and read arguments", "needs parents larger than 2 GiB",
  "lib/stringterminatedsubstream.cpp: read")
p("Malformed archives are reported, they do not abort the program",
  "nextEntry() on a damaged archive reports Error or Eof. Fails for cpio: a size field of 80000000 or more is read as a negative number and runs into the assertion of the entry stream's constructor (before the status is looked at).",
  "every byte string; witness", "malformed inputs are unbounded",
  "lib/cpioinputstream.cpp: nextEntry, readHexField", "lib/subinputstream.cpp: SubInputStream::SubInputStream")
p("In-memory stream built without a length",
  "A StringStream constructed with length -1 holds exactly the items before the first terminating zero; it behaves like a stream constructed with that length.",
  "every memory content and every sequence of calls", "all contents",
  "include/strigi/stringstream.h: StringStream::setData")
p("Tar: an archive with exactly two zero blocks ends with Error","An archive whose end marker is just the two zero blocks the format requires, in an input that reports Eof together with its last byte (such as StringStream): TarInputStream yields all entries, but the iteration ends with status Error instead of Eof.","every list of entries","the claim is about all archives","lib/tarinputstream.cpp: parseHeader (numZeroBlocks)")
p("Tar: GNU long names are reported with the data block's terminating NUL","For an entry announced by ././@LongLink, TarInputStream reports the complete data of the pseudo entry as file name; since GNU tar terminates that data with a NUL, the reported name ends with a NUL (and a directory keeps its slash).","every long name and entry","unbounded names and contents","lib/tarinputstream.cpp: readLongLink, parseHeader")
p("Signature stream starts at position 0 whatever the position of its input",
  "A stream reports the position the next byte comes from. Fails for SignatureInputStream created on an input that is not at its start: position() is 0 before the first call and jumps to the input's position plus the bytes read afterwards.",
  "every input stream and position", "needs inputs that were read before being wrapped; all positions",
  "lib/signatureinputstream.cpp: SignatureInputStream, read")
p("Mail header values: encoded words are decoded, everything else is copied",
  "For every header value: each =?charset?B|Q?data?= is replaced by the text it stands for (UTF-8 as it is, other charsets through the converter), folds are removed and everything else is copied unchanged; in particular text, one encoded word of arbitrary bytes, text gives text, bytes, text.",
  "every header value, charset and converter", "unbounded values with malformed words in every position",
  "lib/mailinputstream.cpp: decodedHeaderValue, decodeQuotedPrintable", "lib/base64inputstream.cpp: decode")
p("Folded mail header values lose a character",
  "Unfolding a header value removes only the line break (and white space). Fails: the first character after the white space is removed too, for every folded value.",
  "every folded value", "claim about all values",
  "lib/mailinputstream.cpp: decodedHeaderValue")
p("Mail header values are read one byte too far",
  "decodedHeaderValue(v, len) only looks at the len bytes it is given. Fails: if the value ends with the question mark of an unfinished encoded word, the byte behind it is looked at.",
  "every value of that form; witness family", "needs memory that ends with the value",
  "lib/mailinputstream.cpp: decodedHeaderValue")
p("Format sniffing of short inputs",
  "Choosing a provider for an input reads only bytes of the input. (Fails: four header bytes are printed without a length check, so any input of one to three bytes causes an out-of-bounds read.)",
  "every input with one to three bytes left", "the over-read usually goes unnoticed",
  "lib/substreamproviderprovider.cpp: SubStreamProviderProvider::subStreamProvider")
p("SDF entries do not depend on read boundaries",
  "The entries of an SD file do not depend on the pieces in which the input stream hands out the file. (Fails: a '$$$$' across the end of a piece is missed.)",
  "every record of 1021 to 1023 bytes without '$'", "needs an input stream with adversarial chunking",
  "lib/sdfinputstream.cpp: SdfInputStream::nextEntry")
p("A zip file without members is reported as an error",
  "If what is left of the input is not empty but shorter than the 30 bytes of a local file header - in particular the 22-byte end record that is the whole of an empty zip file - nextEntry() returns no stream and the status is Error, not Eof, for good.",
  "every input stream positioned before 1 to 29 remaining bytes",
  "the claim covers all short remainders and all kinds of input streams",
  "lib/zipinputstream.cpp: nextEntry, readHeader")
p("Zip members with an unsupported method are handed out raw and cut at the wrong size",
  "A zip member whose method is neither 0 nor 8 and whose sizes are in the header is not refused: its entry stream delivers the first bytes of the raw (compressed) data, as many as the uncompressed size says, and the next nextEntry() looks for a header behind these bytes instead of behind the compressed data.",
  "every such member, every sizes, every input stream, every use of the entry stream",
  "depends on arbitrary sizes and consumption histories",
  "lib/zipinputstream.cpp: nextEntry, readHeader")
p("Zip member without a name: read before the start of the name",
  "For every file that begins with a local file header with name length 0 and is read through FileInputStream with a buffer of at least 30 bytes, the first nextEntry() accesses filename[-1], which is out of bounds.",
  "every such file, every buffer size",
  "memory errors do not show up in test results; the claim covers all values of the other fields",
  "lib/zipinputstream.cpp: readFileName", "include/strigi/bufferedstream.h: BufferedStream::read")
p("A zip member whose data descriptor is cut off ends the iteration with Error",
  "If a zip file ends inside (or before) the data descriptor of a member, iteration presents all members before it and that member itself, with its content, and then ends with the status Error, whatever the client does with the entry streams.",
  "every list of well-formed members, every well-formed streamed member, every cut of its descriptor, every non-failing input stream, every use of the entry streams",
  "the cut position, the members and the client's reads are unbounded",
  "lib/zipinputstream.cpp: ZipInputStream::nextEntry")
p("Multipart mails: the entries are the parts",
  "For every multipart mail (any nesting, preambles, epilogues, base64 parts, also if it is cut off), iterating the provider presents exactly the parts, in order, with their names (or numbers) and decoded contents, and ends with Eof, whatever the client does with the entry streams and however the input is chunked. Parts extend from the line behind their header to the next occurrence of the delimiter of their multipart.",
  "all mails below 2 GiB whose lines have less than 2^20 bytes and whose boundaries are searchable (C18), all input streams, all uses of the entry streams",
  "unbounded number of parts, nesting depth, chunkings and client behaviours",
  "lib/mailinputstream.cpp: MailInputStream::nextEntry, Private::scanBody, handleBodyLine, readHeaderLine")
p("Mail header accessors return the last field of their name",
  "After construction subject(), to(), from(), cc(), bcc(), messageid(), inreplyto(), references() return the decoded value of the last header line with that name (any case, folded lines included), contentType() the undecoded value; empty if there is none. Lines with less than 8 bytes are ignored: 'To: a@b' is lost.",
  "all mails with a complete header, all input streams",
  "unbounded headers and chunkings",
  "lib/mailinputstream.cpp: Private::handleHeaderLine, readHeader")
p("Mails that are not multipart have one entry, the body",
  "A mail without a boundary has exactly one entry 'body'; it delivers everything from the empty line on that ends the header (the empty line is part of it); nextEntry() then returns null for good.",
  "all mails with a complete header and no boundary, all input streams",
  "unbounded contents and chunkings",
  "lib/mailinputstream.cpp: MailInputStream::nextEntry")
p("A mail without an empty line has no entries",
  "If the input ends before an empty line, the constructor leaves the status Eof and there are no entries.",
  "all inputs that end within the header, all input streams",
  "unbounded headers",
  "lib/mailinputstream.cpp: MailInputStream::MailInputStream, Private::readHeader")
p("Mails written as RFC 2046 says are taken apart again",
  "For every list of parts: the mail that consists of a header, a preamble, the parts with their delimiter lines, the closing delimiter and an epilogue presents exactly these parts; the content of each entry is the text of the part and the line break in front of the delimiter (which does not belong to the part according to the RFC).",
  "all headers, boundaries, preambles, lists of parts and epilogues",
  "unbounded number and size of parts",
  "lib/mailinputstream.cpp: MailInputStream::nextEntry")
p("LF mails: the first line of a part is lost if it starts with a blank",
  "If the lines end with LF only and the text of a part starts with a space or tab, its first line is taken for a continuation of the empty line in front of it and is missing from the entry.",
  "all such parts",
  "a statement about all texts",
  "lib/mailinputstream.cpp: Private::readHeaderLine, handleBodyLine")
p("Quoted boundary followed by a blank",
  "A quoted boundary parameter is unquoted if it ends the line or a semicolon follows directly; if a blank comes between the quote and the semicolon, the quote is kept as part of the boundary and no part of the mail is found.",
  "all boundaries, all bodies that do not contain the delimiter with the quote",
  "a statement about all mails of this form",
  "lib/mailinputstream.cpp: Private::value, scanBody")
p("A part that is cut off in its first line is dropped",
  "If the mail ends in the first line of the text of a part, that part is not presented at all, although a part that is cut off later is presented as far as it goes.",
  "all texts without line breaks",
  "a statement about all mails of this form",
  "lib/mailinputstream.cpp: Private::handleBodyLine")
p("A complete listing shows every entry of the archive and of nested archives",
  "After listing an archive to the end, looking up any path below it finds exactly the entries that the archive and the archives nested in it (at most nine deep) contain, under the path of the outer entry followed by the path of the inner one: with the attributes of the entry, nested archives marked as directories and unknown sizes counted, and implied directories where only something below was mentioned.",
  "every archive content with nesting up to nine, and every path",
  "contents and paths are unbounded trees; a test lists one archive",
  "lib/listinginprogress.cpp: ListingInProgress::nextEntry, addEntry", "lib/archiveentrycache.cpp: RootSubEntry::findEntry")
p("openStream opens the entry that the url leads to",
  "If part of a url is a file that can be opened (the longest such part) and the rest is the path of an entry in that archive, possibly through nested archives, ArchiveReader::openStream returns the stream of that entry; if the rest starts with the name of no plain file of the archive, or no part can be opened, it returns null. (It holds provided that no plain file earlier in the archive has a name with which the rest of the url starts; otherwise it is refuted: with the files a and ab, opening x/ab opens a, and with a and ab/c, opening x/ab/c fails.)",
  "every opener, url, archive content and nesting depth",
  "names are compared by prefix, so failures depend on which other names are in the archive and in which order",
  "lib/archivereader.cpp: ArchiveReader::openStream, positionedProvider, cullName")
p("canHandle answers whether the longest existing part of the url is an archive",
  "On a reader without cached listings canHandle(url) is true exactly if the longest part of the url (cut at a slash) that exists is a file that contains an archive, or is both file and directory by itself.",
  "every opener and every url",
  "urls and file systems are unbounded",
  "lib/archivereader.cpp: ArchiveReader::canHandle, localStat")
p("stat and isArchive work after a cached archive has changed on disk",
  "After an archive has been listed completely and has then changed on disk, stat and isArchive report the new state. (Refuted: unless the file name reported for it is the whole url, the first call deletes the cached entry but leaves the pointer to it in the cache, and the next call for the same file reads deleted memory.)",
  "every opener, cache and url",
  "needs a history: list, change, stat twice",
  "lib/archivereader.cpp: localStat", "lib/archiveentrycache.h")
p("stat finds exactly what a listing shows",
  "stat on a new reader, for a url that does not exist by itself and whose parent lies in an archive nested at most nine deep, finds an entry exactly if the complete listing of the archive shows one there, and reports it under its last path component; for directories whose first mention in the archive is the one under which their entries come.",
  "every opener, archive content and url",
  "contents and paths are unbounded; stat reads only as much of the archive as needed",
  "lib/archivereader.cpp: ArchiveReader::stat, dirEntries, DirLister::nextEntry", "lib/listinginprogress.cpp")
p("A listing lives as long as the DirListers that use it",
  "The shared listing is kept as long as the reader or a DirLister uses it. (Holds when DirListers are only constructed and destroyed; refuted for copies: copying a DirLister does not count it, so after destroying both the listing is deleted while still in use.)",
  "every sequence of construction, copy and destruction",
  "lifetimes depend on the whole history",
  "lib/archivereader.cpp: DirLister::DirLister(const DirLister&), DirLister::Private")
p("Assigning a DirLister makes it list what the other one lists",
  "After a = b, a lists the directory of b. (Refuted: the url is not assigned, so a DirLister that has not been advanced goes on to list its own directory.)",
  "every pair of DirListers",
  "depends on how far the assigned lister was advanced",
  "lib/archivereader.cpp: DirLister::Private::operator=")
p("A well-formed OLE file presents its streams",
  "Iterating over a well-formed compound document (any number of blocks, any order of blocks in the chains, extension blocks of the allocation table included) presents its streams in the order of the directory, with name, size and content, whatever the client does with the entry streams, and then ends with Eof; apart from small streams that start late (C95).",
  "every well-formed file and every use of the entry streams",
  "files and chains are unbounded",
  "lib/oleinputstream.cpp: OleInputStream, nextEntry, OleEntryStream::fillBuffer")
p("No stream of an OLE file is missing",
  "All streams of a well-formed file are presented. (Refuted: the number of the first 64-byte piece of a small stream is compared with the number of the last 512-byte block of the file; streams that start later in the ministream are silently skipped.)",
  "every well-formed file",
  "needs a file whose ministream fills most of it",
  "lib/oleinputstream.cpp: readEntryInfo")
p("An OLE file may end with any block",
  "A well-formed file is accepted whatever block is the last one. (Refuted: the bounds check of readInt32 is off by one, so a file whose last block belongs to the extension of the allocation table is rejected.)",
  "every well-formed file with an extension block at the end",
  "files of more than 7 MB with this layout",
  "lib/oleinputstream.cpp: readInt32")
p("The status tells a broken OLE file from an empty one",
  "After the constructor has set the status Error, the status stays Error. (Refuted: the first nextEntry() replaces it by Eof.)",
  "every input that is rejected",
  "all rejected inputs",
  "lib/oleinputstream.cpp: nextEntry")
p("An OLE provider can be destroyed at any time",
  "The destructor can be called at any time. (Refuted: while an entry is current, the entry stream is deleted twice.)",
  "every well-formed file with a stream",
  "needs a client that stops early",
  "lib/oleinputstream.cpp: ~OleInputStream, ~Private", "include/strigi/substreamprovider.h: ~SubStreamProvider")
p("No OLE header causes undefined behaviour",
  "The constructor has defined behaviour for every file. (Refuted: a number of extension blocks of at least 2^24 in the header makes a signed multiplication overflow.)",
  "every file with such a header",
  "all headers",
  "lib/oleinputstream.cpp: Private::Private")
p("OLE files from inputs of unknown size are read safely",
  "C49 also holds for inputs that find out their size only at the end. (Refuted: for such inputs the length check is skipped, and a file that ends in its directory makes nextEntry() read behind the end of the file image.)",
  "every buffered stream that delivers the file",
  "depends on the kind of the input stream",
  "lib/oleinputstream.cpp: Private::Private, readEntryInfo")
p("Bytes that a pipe did not take are written later",
  "If write() takes only some of the bytes, the rest is written later. (Refuted: the input is set to the position behind all of them; the rest is lost.)",
  "every input and every short write",
  "depends on the pipe and on signals",
  "lib/processinputstream.cpp: writeToPipe")
p("The output of every program can be read",
  "Reading from the output of a process does not block for ever if the program only waits for the end of its input. (Refuted: after each chunk written the stream waits for output; with a program like sort, and any input that comes in more than one chunk or is at its end already, the first read blocks for ever.)",
  "every program that waits for the end of its input, and every input",
  "deadlock between two processes",
  "lib/processinputstream.cpp: fillBuffer")
p("The output of a process is delivered exactly",
  "If the output of the process does not depend on its input (or there is none), the stream over the process obeys the whole contract of a stream over that output, however the pipe cuts it into pieces, and whatever healthy input is fed to the process.",
  "every output, every way to cut it, every sequence of calls",
  "pipe schedules are unbounded",
  "lib/processinputstream.cpp: fillBuffer, runCmd, runCmdWithInput")
p("The destructor of ProcessInputStream ends the child",
  "The destructor sends SIGTERM to the child. (Refuted: the arguments of kill are swapped: process 15 gets the signal whose number is the pid of the child; then the destructor waits for the child.)",
  "every pid other than 15",
  "depends on the pid",
  "lib/processinputstream.cpp: ~ProcessInputStream")
p("Failures of the pipes are reported; the pipe is closed exactly once",
  "As long as a ProcessInputStream is not in state Error, no write to the child and no read from it has failed; if its input fails, the read that notices it returns -2 and the state is Error. The writing end of the child's input pipe is closed exactly once (by the stream or by the destructor), if there is an input.",
  "every child and operating system (an arbitrary machine answering the system calls), every input stream, every sequence of read, skip and reset",
  "the failing call can be any of the calls in any history",
  "lib/processinputstream.cpp writeToPipe fillBuffer ~ProcessInputStream")
p("LZMAInputStream delivers the decompressed data",
  "Over an input that stands at a supported header followed by LZMA data x that the decoder turns into y, an LZMAInputStream is a stream over y (all of the stream contract, including size()); for data with an end mark always, for data of known size if the decoder never has output pending without needing input or if the input goes on after x. If the input ends before the end mark, the stream delivers only bytes of y and fails; it never reports Eof.",
  "every input stream, every compressed data, every decoder that turns x into y in pieces of any size, every sequence of read, skip and reset",
  "the boundaries of the input chunks and of the output buffer can fall anywhere; every call sequence",
  "lib/lzmainputstream.cpp LZMAInputStream fillBuffer readFromStream")
p("Unsupported LZMA headers are rejected",
  "If the input does not start with a header that checkHeader accepts, a new LZMAInputStream is in state Error; the input can be set back to where it was.",
  "every input",
  "all byte sequences",
  "lib/lzmainputstream.cpp LZMAInputStream checkHeader")
p("LZMAInputStream loses pending output at the end of the input",
  "Claim refuted: a file of known size that the decoder can finish is delivered completely. Whenever the decoder's input is used up and the input stream is at its end, the next read fails although the decoder may have output pending (a match that did not fit into the output buffer): a complete file read with read(buf,1,1) fails.",
  "every decoder, every state with pending output",
  "depends on where the boundary of the output buffer falls",
  "lib/lzmainputstream.cpp fillBuffer readFromStream")
p("RPM files present the members of their payload",
  "For every well-formed RPM file (lead, signature block padded to eight, header block whose index offsets are inside the store, payload) whose payload is a cpio archive compressed with gzip, bzip2 or lzma, RpmInputStream's nextEntry() returns exactly the members of the archive in order, with their names, sizes, times and contents, then no stream and status Eof - whatever the client does with the entry streams in between.",
  "all RPM files, all index tables and stores, all archives, all decompressors that work, all input streams obeying the contract, all uses of the entry streams",
  "a test needs concrete files; the sizes of the blocks, the padding, the compression and the interleaving of calls are unbounded",
  "lib/rpminputstream.cpp: RpmInputStream::RpmInputStream, nextEntry","lib/cpioinputstream.cpp")
p("RPM files with hostile numbers: undefined behaviour (negative result)",
  "The constructor of RpmInputStream computes nindex*16+hsize in 32-bit signed arithmetic without a check: for any stream whose signature holds numbers that do not fit, the behaviour is undefined. For any stream whose header has at least one index entry and a negative store size such that together they make 1 to 11 bytes, the constructor reads memory behind the bytes it was given. And a file whose signature block is empty is rejected over a StringInputStream, whatever follows, because a read of 0 bytes returns everything.",
  "all files of these shapes, all input streams obeying the contract",
  "tests do not contain such files, and a read behind a buffer does not fail visibly",
  "lib/rpminputstream.cpp: RpmInputStream::RpmInputStream")
p("RPM: the constructor is total on sane numbers",
  "Whatever the input contains, if the numbers in the two header blocks (as far as they are present) are not negative and the blocks are neither empty nor larger than 2^31-8 bytes, the constructor of RpmInputStream returns without reading outside the data. If it accepts the input, that is a well-formed RPM file whose payload starts like one of the three compressed formats; if it rejects the input, the status is Error and nextEntry() returns no stream, for good.",
  "all input contents with sane numbers, all decompressors, all input streams obeying the contract",
  "arbitrary contents cannot be enumerated",
  "lib/rpminputstream.cpp: RpmInputStream::RpmInputStream, nextEntry")
p("The compressing stream is a stream over the compressed data",
  "Over any InputStream that obeys the contract, and for every compressor that turns what is left of the input into the bytes y however the data is cut into pieces, GZipCompressInputStream is an InputStream over exactly y: whatever reads, skips and resets the client makes, all data the compressor produces comes out once and in order, nothing is lost at the end when the flushed data does not fit into the buffer, and it fails only if the input fails.",
  "all input contents and compressed forms, all chunkings of the input, all buffer sizes, all client histories",
  "chunkings, compressors and client histories cannot be enumerated",
  "lib/gzipcompressstream.cpp: GZipCompressInputStream::fillBuffer, readFromStream")
p("Compressing and decompressing gives the data back, but only in the zlib format",
  "GZipInputStream in the format ZLIBFORMAT over a GZipCompressInputStream over an input gives exactly the contents of the input. The claim that the class writes gzip streams (its name, and the comment in its constructor) is false: its output starts with a byte with 8 in the lower half, and a GZipInputStream in its default format always rejects it.",
  "all input contents, all matching pairs of compressor and decompressor, all client histories",
  "contents and client histories cannot be enumerated; the tests never read the output back",
  "lib/gzipcompressstream.cpp: GZipCompressInputStream::GZipCompressInputStream, fillBuffer", "lib/gzipinputstream.cpp: GZipInputStream")
p("LZMAInputStream decompresses every LZMA file with end mark","Over an input that stands at a supported header followed by the complete LZMA data x (with end mark) that stands for y according to the LZMA format, an LZMAInputStream with the bundled decoder is a stream over exactly y that never fails, whatever follows x. If the input ends within x, it delivers only bytes of y and fails; it never reports Eof.","every input stream, every valid LZMA data of any length, every sequence of read, skip and reset","the decoder must agree with the format for every sequence of bits, every split of the input, every position of the output buffer boundary and every wraparound of the dictionary","lib/lzma/LzmaDec.c LzmaDec_DecodeToBuf LzmaDec_DecodeToDic LzmaDec_DecodeReal LzmaDec_TryDummy LzmaDec_WriteRem","lib/lzmainputstream.cpp LZMAInputStream")
p("LZMAInputStream on data of known size","Over an input that stands at a header with a size and complete LZMA data x for that many bytes y (with or without end mark), followed by at least one more byte, an LZMAInputStream is a stream over exactly y that never fails. If the input ends with x or within it, the stream delivers only bytes of y and does not report Eof before all of them have been read, but it can fail; it does so for valid files in which the last match crosses the boundary of the output buffer.","every input stream, every valid LZMA data of any length, every sequence of read, skip and reset","every split of the input and every position of the buffer boundary","lib/lzma/LzmaDec.c LzmaDec_DecodeToBuf","lib/lzmainputstream.cpp fillBuffer")
p("The LZMA decoder is safe and correct on arbitrary data","Whatever bytes the bundled decoder gets, in whatever pieces, with whatever output space and mode: every call returns without accessing memory outside its buffers, consumes at most what it got, writes at most what fits, and everything written is what the data so far stands for. A request for more means the space is full, or the input is used up and everything it stands for has been written; a reported end mark means the data consumed so far is a complete stream that stands for exactly the bytes written; an error in mode LZMA_FINISH_ANY means that the data is neither the beginning nor a continuation of any complete stream with end mark.","every byte sequence, every split into calls, every output space and mode","all byte sequences and all splittings; memory safety on malicious data","lib/lzma/LzmaDec.c LzmaDec_DecodeToBuf LzmaDec_DecodeToDic LzmaDec_DecodeReal LzmaDec_TryDummy LzmaDec_WriteRem LzmaDec_InitDicAndState")
p("LZMA parameters","The decoder accepts exactly the five property bytes that encode lc<9, lp<5, pb<5 and a dictionary size, and works with these values (a dictionary below 4096 counts as 4096); every header that LZMAInputStream supports is among them.","every sequence of five bytes","all 2^40 sequences","lib/lzma/LzmaDec.c LzmaProps_Decode","lib/lzmainputstream.cpp checkHeader")
p("LZMAInputStream on arbitrary data without declared size","Every sequence of bytes stands for a definite finite sequence y according to the LZMA format. Whatever bytes follow a supported header without size: if no end mark follows y, the stream delivers only bytes of y, in order, never reports Eof, and finally fails; every call returns, and no memory outside the buffers is touched, even if the input stream fails at any time. (If an end mark follows, C114 applies.)","every byte sequence after the header, every input stream (which may fail), every sequence of read, skip and reset","all byte sequences, including malicious ones","lib/lzmainputstream.cpp LZMAInputStream fillBuffer readFromStream","lib/lzma/LzmaDec.c LzmaDec_DecodeToBuf")
p("LZMAInputStream on arbitrary data with declared size","Whatever bytes follow a supported header with size n, and y is all they stand for: if y has at least n bytes the stream delivers exactly the first n of them or fails; if it has fewer and an end mark follows, the stream delivers y and then reports Eof, or fails; otherwise it delivers only bytes of y and never reports Eof. Every call returns, and no memory outside the buffers is touched.","every byte sequence after the header, every input stream (which may fail), every sequence of read, skip and reset","all byte sequences, including malicious ones","lib/lzmainputstream.cpp LZMAInputStream fillBuffer readFromStream","lib/lzma/LzmaDec.c LzmaDec_DecodeToBuf")
p("FileStreamOpener opens files and tells about them",
  "FileStreamOpener::openStream(url) returns no stream exactly if the file cannot be opened, and otherwise a stream over the bytes of the file (also where the system reports size 0 for a file that is not empty). stat(url, e) fails exactly if the system's stat does; otherwise e gets the size, the time, the type (File for regular files, Dir for directories, else Unknown) and as name what follows the last '/' of the url; an url ending in '/' has an empty name. Only the part of the url before a zero byte is looked up.",
  "all file systems, all urls",
  "ranges over every url and every file system state",
  "lib/filestreamopener.cpp: FileStreamOpener::openStream", "lib/filestreamopener.cpp: FileStreamOpener::stat")
p("FileInputStream reports I/O errors and copes with files that change their size",
  "If reading a file fails after some bytes, FileInputStream delivers only bytes of the file, never reports Eof, and every read that needs more than the readable bytes returns less than -1 with status Error. The exception: if nothing can be read and the system reports size 0 the stream looks empty and the error is lost. A file that became shorter than the size found at the beginning is read to its end without an error, while size() keeps the wrong value; for a file that became longer a read beyond the old size fails.",
  "all file contents, buffer sizes, reported sizes, places of the error, and sequences of calls",
  "ranges over all contents, error positions and call sequences; I/O errors are hard to provoke",
  "lib/fileinputstream.cpp: FileInputStream::fillBuffer", "lib/fileinputstream.cpp: FileInputStream::open")
p("SkippingFileInputStream: I/O errors and growing files",
  "When reading fails, SkippingFileInputStream sets its status to Error but read returns the number of bytes before the error (0 for a directory) instead of a number below -1, and a following reset makes the status Ok again. If the file grew after it was opened and a read went two or more bytes beyond the original size, a larger read without limit computes a negative buffer size and reads to a null pointer.",
  "all file contents, sizes and read arguments",
  "refutes two claims for every content and argument; depends on I/O errors and concurrent writers",
  "lib/skippingfileinputstream.cpp: SkippingFileInputStream::read", "lib/skippingfileinputstream.cpp: SkippingFileInputStream::reset")
p("strcasecmp and strncasecmp replacements compare correctly",
  "On platforms without them, strcasecmp and strncasecmp (limit at least 1) stay within the strings and return 0 exactly for strings that differ at most in the case of letters (up to the limit). With limit 0 strncasecmp's result is undefined, and for characters outside ASCII the sign is not that of the C library.",
  "all strings and all limits",
  "ranges over all strings; only compiled on some platforms",
  "lib/compat.cpp: strcasecmp", "lib/compat.cpp: strncasecmp")
p("strcasestr and isblank replacements",
  "Where strlwr exists, the strcasestr replacement finds the first place that differs from the pattern at most in case, and nothing if there is none. Without strlwr it is case sensitive (so a transfer encoding written 'Base64' is missed). The isblank replacement is true also for the ends of lines.",
  "all strings and characters",
  "ranges over all strings; only compiled on some platforms",
  "lib/compat.cpp: strcasestr", "lib/compat.cpp: isblank")
p("ar reader is total on arbitrary bytes",
  "Whatever the bytes of the input are and whatever a client does (nextEntry, reading, skipping and resetting entries in any order, whatever the results), ArInputStream touches no memory outside of objects, fails no assertion and always returns; it presents at most one entry per 60 bytes of input, so iterating over an archive ends.",
  "all byte sequences, all input streams that may be used in any way (C128), all histories of calls",
  "ranges over all inputs and histories, including malformed archives",
  "lib/arinputstream.cpp: ArInputStream::nextEntry", "lib/arinputstream.cpp: ArInputStream::readHeader", "include/strigi/subinputstream.h: SubInputStream")
p("tar reader on arbitrary bytes",
  "Whatever the bytes of the input are, provided that they nowhere contain '././@LongLink', and whatever a client does, TarInputStream touches no memory outside of objects, fails no assertion and always returns; it presents at most one entry per 512 bytes. With a LongLink entry this fails: the block behind it is not checked before numbers are read from it with sscanf (read past its end), and a LongLink of size zero makes the reader look at the byte in front of an empty name.",
  "all byte sequences, all input streams that may be used in any way, all histories of calls",
  "ranges over all inputs and histories, including malformed archives",
  "lib/tarinputstream.cpp: TarInputStream::nextEntry", "lib/tarinputstream.cpp: TarInputStream::readHeader", "lib/tarinputstream.cpp: TarInputStream::readLongLink")
p("cpio reader on arbitrary bytes",
  "Whatever the bytes of the input are, provided that where they look like a complete header the sizes of content and name are hexadecimal numbers below 2 GB and a name that starts with './' is terminated, and whatever a client does, CpioInputStream touches no memory outside of objects, fails no assertion and always returns; it presents at most one entry per 110 bytes. Without the condition it fails: a negative length of the name moves a mapped file in front of its first byte, or back to the header so that the same entry is presented without end.",
  "all byte sequences that meet the condition, all input streams that may be used in any way, all histories of calls",
  "ranges over all inputs and histories, including malformed archives",
  "lib/cpioinputstream.cpp: CpioInputStream::nextEntry", "lib/cpioinputstream.cpp: CpioInputStream::readHeader", "lib/cpioinputstream.cpp: CpioInputStream::readHexField")
p("input streams may be used in any way",
  "StringInputStream (below 2 GB), MMapFileInputStream, SkippingFileInputStream and FileInputStream return from every call of read, skip and reset whatever the arguments (numbers of 32 bits for read, a minimum that is not negative for a mapped file; numbers that are not negative for skip and reset) and whatever happened before; they deliver the bytes at their position or an error. A mapped file read with a negative number moves in front of its first byte, and the next read touches memory outside of the mapping.",
  "all contents, all arguments, all histories",
  "ranges over all arguments and histories, also those that the documentation leaves open",
  "lib/mmapfileinputstream.cpp: MMapFileInputStream::read", "include/strigi/stringstream.h: StringStream", "lib/skippingfileinputstream.cpp: SkippingFileInputStream", "include/strigi/bufferedstream.h: BufferedStream", "lib/fileinputstream.cpp: FileInputStream")
p("decompressing streams are total on arbitrary bytes",
  "Whatever the bytes of the input are, a GZipInputStream (with or without looking for the magic number) or a BZ2InputStream can be constructed, and then every call of read, skip and reset returns, also after the end and after an error: no memory outside of objects is touched, no assertion fails, nothing loops for ever. All bytes that are ever delivered are those of one content, whatever the client does, and a read that delivers less than the minimum has met the end or an error. Assumed of zlib and libbz2: a call consumes and writes no more than it is given, and the output is at most proportional to the input.",
  "all byte sequences, all input streams that may be used in any way (C128), all histories of calls, all decompressors of bounded expansion",
  "ranges over all inputs (also corrupt ones) and histories",
  "lib/gzipinputstream.cpp: GZipInputStream", "lib/bz2inputstream.cpp: BZ2InputStream", "include/strigi/bufferedstream.h: BufferedStream")
p("zip reader on arbitrary bytes",
  "Whatever the bytes of the input are, provided that where they look like a complete local file header the name is not empty (C77) and the size is below 2 GB, and whatever a client does (nextEntry, reading, skipping and resetting entries in any order, whatever the results, for stored, deflated and streamed members), ZipInputStream touches no memory outside of objects, fails no assertion and always returns; it presents at most one entry per 30 bytes of input.",
  "all byte sequences that meet the condition, all input streams that may be used in any way, all histories of calls, all decompressors of bounded expansion",
  "ranges over all inputs and histories, including malformed archives",
  "lib/zipinputstream.cpp: ZipInputStream::nextEntry", "lib/zipinputstream.cpp: ZipInputStream::readHeader", "lib/zipinputstream.cpp: ZipInputStream::readFileName", "include/strigi/subinputstream.h: SubInputStream")
p("SD file reader is safe on arbitrary bytes",
  "Whatever the bytes of a file below 2 GB are, whatever a client does with the entry streams, and although the input may refuse a reset to an earlier position, nextEntry() of SdfInputStream and the calls on the entry streams return: no access outside of objects, no failed assertion, no endless loop; the number of entries is at most a quarter of the number of bytes.",
  "all contents below 2 GB, all input streams that may be used in any way (in memory, mapped, fseeko, buffered files of any buffer size), all sequences of calls",
  "all byte strings and all call sequences",
  "lib/sdfinputstream.cpp: SdfInputStream::nextEntry", "lib/subinputstream.cpp: SubInputStream")
p("the mail reader is total on arbitrary bytes",
"Whatever the bytes of a file below 2 GB are (with lines, header fields, boundaries and encodings that are broken in any way), whatever iconv does with header values and whatever an uninitialised member contains, MailInputStream can be constructed on it, and then every call of nextEntry(), and of read (minimum from 1 to 1 GB, no maximum or one that is not below the minimum), skip and reset on the entry streams returns: no memory outside of objects is touched, no assertion fails, nothing loops for ever. Four times the number of entries is at most the length of the file (or there is one entry, the body of a mail without parts).",
"all file contents below 2 GB, all clients (sequences of calls, whatever their results), all behaviours of iconv, in-memory, mapped, seekable and buffered files with any buffer size",
"Corrupt mails are an infinite set, and each must be combined with every order of calls; a test shows one path.",
"lib/mailinputstream.cpp: MailInputStream, readHeaderLine, handleBodyLine, nextEntry","lib/stringterminatedsubstream.cpp: StringTerminatedSubStream::read","lib/base64inputstream.cpp: Base64InputStream::fillBuffer")
p("a maximum below the minimum",
"As documented, a maximum below the minimum is no limit for MMapFileInputStream, SkippingFileInputStream and FileInputStream: in every state that can be reached, a read that delivers fewer bytes than the minimum leaves the status Eof and the position at the end, whatever the maximum is. It is not so for StringInputStream, and not for a part of a mail (StringTerminatedSubStream): for all contents that do not contain the terminator, and all 0 < max < min with max < length < min + length of the terminator, read delivers max bytes with status Ok although more are left; with a negative maximum it reports a negative number of bytes with status Ok, or an assertion of the input fails.",
"all contents, all histories of calls, all minima and maxima",
"The documentation speaks about all arguments; tests of the library never use a maximum below the minimum except 0.",
"include/strigi/streambase.h: StreamBase::read","lib/stringterminatedsubstream.cpp: read","include/strigi/stringstream.h: read","lib/mmapfileinputstream.cpp: read")
p("archives inside of archives, to any depth",
"However a client uses a file (in memory, mapped, seekable or buffered), the readers it opens on it (tar, cpio, ar, zip, SD file, gzip, bzip2), the entries of those, readers it opens on the entries, and so on to any depth, going back to an outer reader at any time: every constructor, nextEntry(), and every read (positive minimum), skip and reset (to a position that is not ahead) returns; no memory outside of objects is touched, no assertion fails, nothing loops for ever, whatever the bytes are. A reader may be opened where its requirements are met: tar, cpio, zip and ar by what the stream can be made to deliver (as in C126, C127, C130; for ar no empty table of long names); SD files below 2 GB where a reset is not refused. Two of the restrictions are necessary: an empty table of long names in an ar archive inside of another one fails an assertion, and so does a read after a reset ahead inside the size that a member of a truncated nested archive tells.",
"all files, all nestings of readers of any depth, all histories of calls on all levels, all decompressors of bounded expansion",
"The depth and the interleaving of calls on the levels are not bounded, and the content is arbitrary.",
"lib/tarinputstream.cpp: TarInputStream::nextEntry","lib/arinputstream.cpp: ArInputStream::nextEntry","lib/cpioinputstream.cpp: CpioInputStream::nextEntry","lib/zipinputstream.cpp: ZipInputStream::nextEntry","lib/sdfinputstream.cpp: SdfInputStream::nextEntry","lib/subinputstream.cpp: SubInputStream","lib/gzipinputstream.cpp: GZipInputStream","lib/bz2inputstream.cpp: BZ2InputStream")
p("what is inside of stored entries is decided by the file",
"On every stream that is inside of a file through entries that are stored (not compressed), at any depth and after any use, the requirements under which tar, cpio, ar, zip and SD file readers are safe (C134) hold if they hold for the bytes of the file as a whole: nothing that such a stream delivers is not a piece of the file, and no such stream is longer than the file.",
"all files, all nestings of stored entries of any depth, all histories of calls",
"ranges over all nestings and histories",
"lib/subinputstream.cpp: SubInputStream","lib/zipinputstream.cpp: ZipInputStream::nextEntry","lib/tarinputstream.cpp: TarInputStream::nextEntry")
p("an archive is presented exactly although readers are opened on its entries",
"Iterating over a valid archive (tar, cpio, ar, zip with stored, deflated and streamed members, SD file, OLE file, the payload of an RPM package) presents exactly its entries in order and ends with the right status even if the client opens readers of any kind on the entry streams, on the entries of those readers, and so on, uses them in any way and drops them at any moment, before it asks for the next entry. Whenever the client turns back to the entry stream itself, it still is a stream that delivers exactly the content of the entry; and every call that the client makes on the way returns.",
"all archives that are presented exactly to a client that only uses the entry streams themselves (C36-C38, C41, C51, ...), entries below 2 GB, all nestings of readers on the entries, all histories of calls",
"Ranges over all nestings and histories of uses of inner readers on all valid archives; the inner readers share the one input with the outer one.",
"lib/tarinputstream.cpp: TarInputStream::nextEntry","lib/arinputstream.cpp: ArInputStream::nextEntry","lib/cpioinputstream.cpp: CpioInputStream::nextEntry","lib/zipinputstream.cpp: ZipInputStream::nextEntry","lib/sdfinputstream.cpp: SdfInputStream::nextEntry","lib/subinputstream.cpp: SubInputStream")
p("a cpio archive of which the end is missing shows its complete members and invents nothing",
"If the input of a cpio archive ends anywhere, before the end of the archive, on a stream that reports the end with the read that comes up short, the members before the cut are presented exactly. If the cut is in the header of a member or in the padding behind its content, the iteration ends with Eof (the loss is not noticed, the member with the missing padding is presented in full); if it is in the name, the iteration ends with Error; if it is in the content, the member is shown with its full size, its stream delivers exactly the bytes that are there and then reports an error, never Eof, and whatever the client does with it up to that error the iteration then ends with Eof. A stream that reports its end only with a later read makes the reader show an entry without name and size for a header that is cut.",
"all cpio archives, all cut positions, all inputs that never fail and report a short read, all uses of the entry streams",
"Ranges over all archives, all positions at which the input can end and all histories of uses of the entry streams.",
"lib/cpioinputstream.cpp: CpioInputStream::nextEntry, readHeader, readFileName","lib/subinputstream.cpp: SubInputStream::read, SubInputStream::skip")
p("a tar archive of which the end is missing shows its complete entries and invents nothing",
"If the input of a tar archive ends anywhere before the end of the archive, the complete entries before the cut are presented exactly. If less than a block is left (a header that is cut off, or a part of the NULs), if fewer than two blocks of NULs are there, or if the cut is in a long name or its padding, the iteration ends with Error. If the cut is in the content of an entry, the entry is shown with its full size, its stream delivers exactly the bytes that are there and then reports an error, never Eof, and whatever the client does with it the iteration then ends with Error. If only padding is missing, the entry is presented in full and the iteration ends with Error. Two exceptions where the loss is wrongly reported: a cut in the header that follows a long name ends the iteration with Eof, and an entry whose header is the last block of an input that reports its end early (such as one in memory) is not shown, even if it has no content. For every cut: no entry is invented, reordered or shown with wrong data.",
"all tar archives (plain and GNU long names), all cut positions, all inputs that never fail, all uses of the entry streams",
"Ranges over all archives, all positions at which the input can end and all histories of uses of the entry streams.",
"lib/tarinputstream.cpp: TarInputStream::nextEntry, readHeader, parseHeader, readLongLink","lib/subinputstream.cpp: SubInputStream::read, SubInputStream::skip")
p("an ar archive of which the end is missing shows its complete entries and invents nothing",
"If the input of an ar archive ends anywhere before the end of the archive, the complete entries before the cut are presented exactly. If the cut is in the magic, in a header of which at least two bytes are there, or in the table of long names, the iteration ends with Error. If it is in the content of an entry, the entry is shown with its full size, its stream delivers exactly the bytes that are there and then reports an error, never Eof, and whatever the client does with it the iteration then ends with Eof. If it is between two members, after the first byte of a header, or in the symbol table, the iteration ends with Eof, as if nothing were missing. For every cut: no entry is invented, reordered or shown with wrong data.",
"all ar archives (short and GNU long names, symbol tables), all cut positions, all inputs that never fail, all uses of the entry streams",
"Ranges over all archives, all positions at which the input can end and all histories of uses of the entry streams.",
"lib/arinputstream.cpp: ArInputStream::nextEntry, readHeader","lib/subinputstream.cpp: SubInputStream::read, SubInputStream::skip")
p("a read error below an archive is never taken for the end of the archive",
  "If the input of an archive reader (tar, cpio, ar, zip, SD file) fails, then whatever the bytes are and whatever the client did before, the reader never says Eof while its input is in error; the first nextEntry() after the failure returns no entry and the reader's status is Error from then on. This holds for every input whose failures show (a read that does not return a negative number leaves the status different from Error) and last; all buffered streams are such inputs, whatever their fillBuffer() does (files with I/O errors, decompressors on damaged data, processes). MailInputStream is the exception (negative result): if its input fails while it looks for a line, the mail says Eof, as if it had no more parts.",
  "all inputs, all bytes, all histories of calls on the reader and its entry streams, all points where the input fails",
  "the error can strike at any of the many reads inside a reader, after any history of calls; tests can inject it only at a few places",
  "lib/tarinputstream.cpp:nextEntry", "lib/cpioinputstream.cpp:nextEntry", "lib/arinputstream.cpp:nextEntry", "lib/zipinputstream.cpp:nextEntry", "lib/sdfinputstream.cpp:nextEntry", "lib/mailinputstream.cpp:readHeaderLine")
p("a file that cannot be opened or mapped stays in error, unless skip() is called (negative result)",
  "If nothing fails, MMapFileInputStream is the stream of C32. If the file cannot be opened or mapped, the status is Error, read and reset return -2 and change nothing. But skip() does not look at the status: after a failed open any skip(n), n >= 0, turns the stream into one that looks like an empty file for ever (status Eof, position -1); after a failed mmap of a file of N bytes, skip(n), n >= N, returns N and forgets the error, and after reset(q), q < N, read returns a positive number of bytes at the null pointer (plus q).",
  "all files, all numbers of bytes to skip, all positions to go back to, all arguments of read",
  "a failing mmap is hard to provoke in a test, and the wrong state only shows for certain sequences of calls with certain numbers",
  "lib/mmapfileinputstream.cpp:MMapFileInputStream", "lib/mmapfileinputstream.cpp:skip", "lib/mmapfileinputstream.cpp:reset", "lib/mmapfileinputstream.cpp:read")
p("Memory of a buffered stream is bounded by the largest request, and its 32-bit numbers do not overflow below 2^30",
  "The buffer behind any buffered stream never shrinks, keeps its size as long as no read asks for a larger minimum than it holds, and never grows to twice the largest minimum asked for: it does not depend on the length of the stream, the amount read or skipped, rewinding, or the maxima, and this holds for every subclass, even a wrong one. For a subclass that never claims to have stored more than the space it was given, if no minimum exceeds 2^30 then none of the 32-bit numbers of the buffer overflows. Beyond that the code is wrong: reading K items with 2^30 <= K < 2^31-1, rewinding and asking for K+1 doubles the size past 2^31, which is undefined behaviour.",
  "all producers, all histories of read, skip and reset with any arguments, all K between 2^30 and 2^31-2",
  "a bound over all histories, and buffers of gigabytes, are out of reach of a unit test",
  "include/strigi/streambuffer.h: StreamBuffer::makeSpace, StreamBuffer::setSize", "include/strigi/bufferedstream.h: BufferedStream::writeToBuffer, BufferedStream::read, BufferedStream::skip, BufferedStream::reset")
p("an LZMA stream may be used in any way on arbitrary bytes, at any depth of nesting",
  "Whatever the bytes of its input are, an LZMAInputStream can be constructed, and then every call of read, skip and reset returns, also after an error: no access outside of objects, no failing assertion, no endless loop. All bytes it ever delivers, in whatever order it is read, skipped and rewound, are parts of one content. Data of n bytes stands for at most 273 * 2^32 * (n + 1) bytes. The same holds on any stream inside of archives and compressed files at any depth, and for the readers opened on the LZMA stream in turn.",
  "all inputs, all bytes, all histories of calls with any arguments, all nestings of the readers for tar, cpio, ar, SD files, zip, gzip, bzip2 and lzma",
  "Damaged or hostile compressed data can take the decoder into any of its states; only a proof over all inputs and all uses excludes that one of them goes wrong.",
  "lib/lzmainputstream.cpp: LZMAInputStream::LZMAInputStream, fillBuffer, readFromStream", "lib/lzma/LzmaDec.c: LzmaDec_DecodeToBuf, LzmaDec_DecodeReal, LzmaDec_TryDummy")
p("an RPM reader may be used in any way on arbitrary bytes",
  "Whatever the bytes of a file are, provided that the numbers behind every magic of a block are sane (not negative, not both zero, at most 2^31 - 8 bytes; C110 tells what happens otherwise) and that the cpio headers which the decompressed payload delivers are well formed (C127), the constructor of RpmInputStream returns, and so does every call of nextEntry(), and of read, skip and reset on the entries, in any order, also after an error: no access outside of objects, no failing assertion, no endless loop. The number of entries is limited by the size of the payload. The same holds for an RPM file inside of archives and compressed files, at any depth.",
  "all inputs, all bytes that meet the condition, all histories of calls, all three kinds of compression with damaged data, all nestings of other readers around the file",
  "The combinations of damaged headers, damaged compressed data, damaged archives and uses by the client are unbounded.",
  "lib/rpminputstream.cpp: RpmInputStream::RpmInputStream, nextEntry", "lib/cpioinputstream.cpp: CpioInputStream::nextEntry", "lib/lzmainputstream.cpp: fillBuffer", "lib/gzipinputstream.cpp: fillBuffer", "lib/bz2inputstream.cpp: fillBuffer")
p("of a zip file of which the end is missing, exactly the members that are there are presented",
  "If the input of a zip reader breaks off, every member that is there completely is presented as usual, in order, whatever the client does with the entries. If the cut is in a header, a name or an extra field, or in the first 30 bytes of the directory, no further entry is presented and the iteration ends with Error. If it is in the data of a stored member, the entry is shown with its full size, delivers what is there, then an error, never Eof. If it is in the data of a deflated member with the sizes behind the data, the entry delivers bytes of its content and then an error, never Eof, and the iteration ends with Error. Two negative results: if the data of a deflated member with the sizes in the header is cut off, the entry delivers bytes of its content and at most an error, but the iteration ends with Eof; and if less than 16 bytes are left behind such a member (the beginning of the next header, or nothing), the iteration ends with Eof although members are missing.",
  "all inputs, all lists of members of the three kinds, all places of the cut, all uses of the entries including those that met an error",
  "There are as many truncated archives as bytes in archives, and the outcome also depends on how the entries were used before; tests can look at a few cuts only.",
  "lib/zipinputstream.cpp: ZipInputStream::nextEntry, readHeader, readFileName", "lib/subinputstream.cpp: SubInputStream::read, skip", "lib/gzipinputstream.cpp: GZipInputStream::fillBuffer")
p("skip() with a negative number",
"Calling skip() with a negative number is not refused, and no two kinds of streams agree on what it does: the inherited skip does nothing and returns 0; an in-memory stream and every buffered stream pass over everything that is left, and return how many items that were, with status Eof; a file read with fseek goes back by the number, or fails with status Error and stays where it is if that is in front of the file; a mapped file goes back, also in front of its first byte, and the next read then touches memory outside of the mapping; an entry of known size of an in-memory archive leaves the entry for the end of the archive, with a position larger than its size, and its next read ends in a failed assertion. (A result about what the code does: the documentation of skip only tells what a non-negative number means.)",
"all contents, all positions not behind the end, all negative numbers representable in 32 bits, all kinds of buffered streams",
"the number and the position at which skip() is called are unbounded",
"lib/subinputstream.cpp:skip","include/strigi/bufferedstream.h:skip","include/strigi/stringstream.h:skip","lib/mmapfileinputstream.cpp:skip","lib/skippingfileinputstream.cpp:skip","include/strigi/streambase.h:skip")
p("Converting from an encoding that holds back letters",
"Some encodings hold back a letter until the next byte tells whether an accent follows (CP1258, CP1255, TCVN and JISX0213 in glibc); iconv() writes such a letter before it uses up the next byte, and at the end of the text only when it is called without input. InputStreamReader and EncodingInputStream never make that last call: whatever is held back at the end of the input is lost, and the stream ends with status Eof as if it was complete. Worse, if the letter is the last of 262 bytes read at once and the client goes on with reads of one item, nothing of the full buffer of 262 bytes is used up, the code takes this for a buffer it may fill up, reads from the input without limit and writes behind the buffer. (A negative result: two defects.)",
"every encoding that holds back letters, every input (for the loss), every continuation of the input (for the overflow)",
"the defects need letters at particular places of inputs of particular encodings; the input is unbounded",
"lib/inputstreamreader.cpp: decode, fillBuffer","lib/encodinginputstream.cpp")
p("Encoded words of a mail header are converted independently of each other only as long as every word returns to the initial state",
"A mail keeps one iconv converter per encoding for all its headers and never resets it. For encodings without a state the value of a header therefore is a function of the header alone: each encoded word is replaced by the text it stands for if that has at most four times as many bytes, and is left as it is if it is not a text or the encoding is unknown. For any encoding this holds for every sequence of words that all lead back to the initial state, as RFC 2047 demands. But after a word that does not (for instance one that is cut off, or even one that could not be converted and was left as it is) the next word of the same encoding, possibly in another header, is converted in the wrong state: in ISO-2022-JP a backslash becomes a yen sign. (The last part is a negative result.)",
"every sequence of encoded words, every encoding, every header value",
"histories of words are unbounded; the state of the converter is not visible",
"lib/mailinputstream.cpp: Decoder::decode, HeaderDecoder::decodedHeaderValue")
p("The memory of the decompressors is used only while it exists, and given back exactly once",
  "Construct a GZipInputStream, LZMAInputStream or GZipCompressInputStream on whatever stream, use it in whatever way, and destroy it: the library behind it is called only between its initialisation and its end (with the memory taken into account every call does exactly what it does otherwise), and afterwards every block that was allocated has been freed, once; for gzip also if the magic bytes are wrong, for LZMA also if the header is wrong or there is no memory for one of the two blocks (then the constructor reports an error). The same holds for BZ2InputStream if the magic bytes are right. If they are not, the constructor reports an error, and the destructor hands a structure that was never written to libbz2: undefined behaviour, whatever was done in between. And if there is no memory for the state of zlib or libbz2, the constructors of GZipInputStream, BZ2InputStream and GZipCompressInputStream free a pointer that was never written instead of reporting it.",
  "all input streams, contents, formats, decompressors, sequences of read, skip and reset with any arguments, and outcomes of the allocations",
  "A leak, a second free or a use of memory that was freed depends on the exact history (where the data ended or broke, what was read before the destructor ran); tests see one history each, and usually nothing at all.",
  "lib/gzipinputstream.cpp: GZipInputStream::Private, dealloc, fillBuffer", "lib/bz2inputstream.cpp: BZ2InputStream::Private, dealloc, fillBuffer", "lib/lzmainputstream.cpp: LZMAInputStream::Private", "lib/lzma/LzmaDec.c: LzmaDec_Allocate, LzmaDec_Free", "lib/gzipcompressstream.cpp: GZipCompressInputStream, dealloc, fillBuffer")
p("A stream that fails has a text in error()",
  "error() is what a user shows when a stream fails. GZipInputStream, GZipCompressInputStream, Base64InputStream, EncodingInputStream, InputStreamReader and (if the input can be put back) SubInputStream over an input that has a text whenever it fails have one themselves whenever a read fails or their status is Error, whatever the data, the codec and the calls, from the constructor on; so stacks of them do too. The texts change nothing else in what the streams do. BZ2InputStream and LZMAInputStream have a text unless the input itself has not failed: compressed data that is cut off makes them fail with an empty text (a wrong comparison), where GZipInputStream says 'unexpected end of stream'. SignatureInputStream takes over the status of its input but not the text.",
  "all inputs that explain their failures, all data, codecs, converters and buffer sizes, all sequences of calls",
  "the invariant must hold after every sequence of calls and for every way the input and the codec can fail; tests look at a few failures and seldom at the text",
  "include/strigi/bufferedstream.h: read", "lib/gzipinputstream.cpp: readFromStream, fillBuffer", "lib/bz2inputstream.cpp: readFromStream", "lib/lzmainputstream.cpp: readFromStream", "lib/gzipcompressstream.cpp: fillBuffer", "lib/base64inputstream.cpp: moreData", "lib/inputstreamreader.cpp: fillBuffer", "lib/encodinginputstream.cpp: fillBuffer", "lib/subinputstream.cpp: read, skip, reset", "lib/signatureinputstream.cpp")
p("An ArchiveReader used over time",
  "Let a user call dirEntries, stat, isArchive (or canHandle) and nextEntry of any of the returned DirListers of one ArchiveReader in any order and number, while the files do not change, archives are nested at most nine deep, and every DirLister is asked for its first entry before the next dirEntries or stat. Then no call reads memory that is not there; every DirLister of a directory in an archive delivers each name that the complete listing of the archive shows there exactly once and then false for ever, whether the archive was listed before, is being listed by others or is in the cache (if the archive does not come back to the directory by a later entry that replaces it: C52); no DirLister returns a name twice or an entry after false; and stat gives the same answer at any time: what the opener says for files (with Dir added for archives), an entry of the asked name exactly if the complete listing shows it, nothing otherwise. Without the condition on the first entry the reader follows a null pointer (listing collected by another dirEntries). If files change: the listing of a file that is not an archive never ends and its old attributes are returned for ever; a cached archive is never read again by dirEntries; and stat of a changed file deletes a tree that DirListers may still point into.",
  "all files and archives (contents, nesting up to nine, any number of entries), all finite histories of calls of dirEntries, stat, isArchive and nextEntry over any urls and listers",
  "what a call returns depends on the whole history: which listings are in progress, how far others advanced them, and what is in the cache; tests follow one or two listers to the end",
  "lib/archivereader.cpp: DirLister::Private, localStat, stat, dirEntries, findListingInProgress", "lib/archiveentrycache.cpp: findEntry, findRootEntry", "lib/listinginprogress.cpp: nextEntry")
p("A listing goes through archives in archives and finds exactly what is in them",
  "If the bytes of a file are, behind up to 33 layers of gzip and bz2, an archive of one of the known formats, and each of its entries is again such a file or is recognised by none of the formats, then a listing of a stream with these bytes finds exactly the entries of all these archives, with their names, types, times and numbers of bytes, and no more; afterwards the stream can still be used. What looks like a file of one format and like none of another is given to the reader of this format in whatever order the formats are tried; a file without a line break that could be the start of a mail, or an empty one, is opened as a mail and then still not taken for an archive. A file that looks like two formats (a tar archive whose first file has a colon in its name) is read as the one that the addresses of functions put first; LZMA is never recognised on a stream that gives just the bytes that are asked for; for the body of a mail the number of bytes is not found.",
  "all files built in this way, to any depth and of any size; all streams with these bytes; all orders of the formats; all decompressors that do what is required of zlib and libbz2",
  "which readers are tried depends on the addresses of functions, and on how many bytes the streams return; the nesting of archives and compression is unbounded",
  "lib/listinginprogress.cpp: subStreamProvider, ListingInProgress::nextEntry", "lib/archivereader.cpp: subs", "lib/mailinputstream.cpp: checkHeader, nextEntry", "lib/subinputstream.cpp: read")
p("Looking into a file of any bytes never fails",
  "Let a listing go through a file whatever its bytes are: it takes away up to 33 layers of bz2, gzip and LZMA, looks for a format, opens its reader, and does the same with each entry, to any depth. If everything that is opened has what its reader requires (see C126, C127, C130, C134), no memory outside of objects is touched and no assertion fails. Nothing at all is required of files if there are just layers of compression; of a file in which nothing looks compressed it is enough that the bytes of the whole file have what the readers of tar, cpio, ar and SD files require; in both cases the listing also ends. Without the requirements it fails: an ar archive in an ar archive with an empty table of long names makes the listing of it fail an assertion.",
  "all files, all streams with these bytes, all orders of the formats, all depths, all decompressors with bounded output",
  "which readers are opened on what depends on the bytes at every level of nesting, also on what a decompressor makes of damaged data; tests try a few well-formed archives",
  "lib/listinginprogress.cpp: subStreamProvider, ListingInProgress::nextEntry", "lib/arinputstream.cpp", "lib/tarinputstream.cpp", "lib/cpioinputstream.cpp", "lib/zipinputstream.cpp", "lib/sdfinputstream.cpp", "lib/gzipinputstream.cpp", "lib/bz2inputstream.cpp", "lib/lzmainputstream.cpp")
p("The streams of an ArchiveReader are deleted exactly once",
  "Let a client open streams through an ArchiveReader (of files, and of archives in archives), read from those it has, close them in any order, and ask whether files are archives. Nothing is deleted twice and nothing is used that is gone, be it by the client or by the reader; a stream stays usable until it is closed, whatever happens to the others. If all streams are closed nothing that was opened is left. When the reader is deleted, what was not closed is deleted, but for the streams that a StreamOpener opened directly (the documentation of closeStream says these are cleaned up as well).",
  "all sequences of calls, all numbers of open streams, all nestings of archives and layers of compression, all results of looking into the files",
  "which objects are made, tried in vain and thrown away depends on the contents of the files at every level; a mistake shows itself only as a leak or a corrupted heap",
  "lib/archivereader.cpp: openStream, closeStream, positionedProvider, localStat, ~ArchiveReaderPrivate", "lib/listinginprogress.cpp: subStreamProvider, free", "include/strigi/substreamprovider.h: ~SubStreamProvider", "include/strigi/archivereader.h: closeStream")
p("Entries of archives are deleted exactly once",
  "Let a client ask a reader of tar, ar, zip, SD files, mails or RPM packages for entries, use the current one or not, and delete the reader at any time. Each stream that the reader made (the entry, and the streams behind it that decompress and decode) is deleted exactly once, and none is used when it is gone. An OleInputStream does so only if it is deleted when there was no entry left: if it is deleted while it is at an entry, the entry is deleted twice.",
  "all sequences of requests and uses, all files, all times of deletion",
  "which streams stand behind an entry depends on the file; that something is deleted twice need not be visible in a test, and tests go through all the entries",
  "include/strigi/substreamprovider.h: ~SubStreamProvider", "lib/zipinputstream.cpp: nextEntry, ~ZipInputStream", "lib/mailinputstream.cpp: nextEntry, handleBodyLine, ~Private", "lib/sdfinputstream.cpp: nextEntry, ~SdfInputStream", "lib/rpminputstream.cpp: RpmInputStream, nextEntry, ~RpmInputStream", "lib/oleinputstream.cpp: nextEntry, ~OleInputStream, ~Private", "lib/tarinputstream.cpp: nextEntry", "lib/arinputstream.cpp: nextEntry")
p("Several StreamOpeners act as one",
  "An ArchiveReader with several StreamOpeners does what it does with one StreamOpener that opens each url, and tells about it, as the first of them that can, in the order in which they were added; this holds for every history of calls, also if openers are added or files change in between, provided that each opener knows what it can open and opens what it says to be a file. isArchive asks the first opener that recognises the url only; the order does not matter if no two openers know the same url. If an opener knows a file that it cannot open, and a later one opens it, then stat and canHandle say that it is no archive although openStream and dirEntries find its entries.",
  "all lists of openers, all urls, all histories of calls",
  "tests use one opener for files; what happens if two of them know a url depends on which of them is asked by which call",
  "lib/archivereader.cpp: open, localStat, cullName, addStreamOpener, isArchive, canHandle, stat, dirEntries, openStream", "include/strigi/archivereader.h: addStreamOpener, isArchive")
p("An in-memory stream made with a copy is independent of the original",
  "A StringStream that is made with a copy has a block of memory of its own: whatever others do to the memory that they know (write to the original, free it, get new memory), its reads return the items that were at the pointer when it was made, and every pointer that read() ever returned leads to the items that were read until the stream is destroyed; the destructor frees this block and nothing else. Without a copy the same holds as long as others leave the original alone; the stream does not write to it and does not free it. Without a length the items are those before the first null character. A copy of 2^31 - 1 items, or a text of 2^31 characters without a length, is undefined behaviour.",
  "all contents, all pointers, all sequences of calls with arbitrary changes of the memory in between",
  "whether a pointer still leads to its items after all calls, and that nothing else is changed, cannot be tested for all histories; sizes near the limit are not tested",
  "include/strigi/stringstream.h: StringStream, ~StringStream, read, skip, reset")
p("The pointer that read() returned can be used after reset()",
  "After a successful read the pointer shows as many items as the returned number, and it keeps showing these items after any number of resets to positions in the part of the stream that was read, as streambase.h documents it. This holds for files, decompressed and decoded data, and is passed on by the part of a stream, the stream that computes a signature and the stream that ends at a terminator, although the latter reads ahead and resets its input itself; and, for resets that do not go forwards, by the stream that reports its data to a handler.",
  "all data, all pieces in which it comes, all limits of the reads, all sequences of resets into the part that was read, all towers of the streams named",
  "whether memory is moved or overwritten depends on the sizes of the buffer and the pieces; a stale pointer mostly still shows the old items in a test",
  "include/strigi/streambase.h: StreamBase::read, StreamBase::reset",
  "include/strigi/bufferedstream.h: BufferedStream::read, BufferedStream::reset",
  "lib/subinputstream.cpp: SubInputStream::read, SubInputStream::reset",
  "lib/stringterminatedsubstream.cpp: StringTerminatedSubStream::read, StringTerminatedSubStream::reset",
  "lib/signatureinputstream.cpp: SignatureInputStream::read, SignatureInputStream::reset")
if __name__ == "__main__":
    out = os.path.join(os.path.dirname(os.path.abspath(__file__)), "..", "properties.jsonl")
    with open(out, "w") as f:
        for x in P: f.write(json.dumps(x) + "\n")
    print(len(P))
