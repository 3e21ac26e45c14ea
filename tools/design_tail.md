## Partial results

C153: that looking into any file is safe is not proved for the readers of mails and RPM packages, and that it ends not for archives with compressed data.  C18 was partial: that every query is found is false of the code; now the queries that can be missed are described exactly.

## Defects of the code found on the way

Each is a theorem about the model; the property says which one: C04 (narrowing in `skip`), C10 (declared size 0 unchecked), C16, C22, C31 (two overloads), C33 (skip beyond the file), C34, C40 (over-read), C42
(DOS hours), C45/C47 (late directories), C52, C53, C54 (stack overrun), C56 (conversions of one character to several), C61, C62, C64, C65, C67–C69, C71–C78, C82, C84–C86, C90, C92, C93, C95–C102, C104, C108, C110,
C113, C115 (a valid file of known size that cannot be read to its end), C121 and C122 (I/O errors hidden), C126 (long names), C128 and C133 (unusual arguments), C140 (mails hide read errors), C141 (`skip` hides a failed `mmap`), C142 (doubling a buffer of 1 GB overflows), C145 (zip files that are cut off behind or in a deflated member are reported as complete), C146 (`skip` with a negative number), C147 (letters held back by an encoding: lost, or a write outside of a buffer), C148 (converters of a mail are not reset), C149 (a `BZ2InputStream` on something else is destroyed with memory that was never written; no decompressor but LZMA survives a lack of memory), C150 (bz2 and LZMA data that is cut off: an error without a text), C151 (an `ArchiveReader`: a null pointer is followed if a `DirLister` is first used after its listing was collected; listings and cached archives that never notice a change of the file; a tree deleted under a `DirLister`), C152 (which format a file is taken for can depend on the addresses of functions; LZMA is looked for in two bytes; empty streams are opened as mails; the body of a mail is listed with an unknown size), C154 (streams that a `StreamOpener` opened directly are not deleted with the `ArchiveReader`, although the documentation says so), C155 (an `OleInputStream` that is deleted while it is at an entry deletes the entry twice), C157 (signed overflow for texts near 2^31 items), C156 (of a file that the first opener knows but cannot open, `canHandle` says that it is no archive although a later opener opens it and its entries are listed).
