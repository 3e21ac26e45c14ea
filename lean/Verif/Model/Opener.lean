import Verif.Model.FileStreams
import Verif.Model.CLib

/-!
# Model of I/O errors of files and of `FileStreamOpener`
(lib/fileinputstream.cpp, lib/skippingfileinputstream.cpp, lib/filestreamopener.cpp)

The operating system is given by what `fopen` and `stat` find under a path, see `FileSystem`.
-/

namespace Strigi

variable {α : Type}

namespace FileInputStream

/-- fileinputstream.cpp:98-117 with the `ferror` branch.  The file is given by the bytes that can be read;
`broken` says what is met behind them: an I/O error instead of the end of the file.  (On an I/O error `fread`
stores the bytes before it; the code then drops them.) -/
def producerIO (broken : Bool) : Producer (Option (CFile α)) α where
  fill f space :=
    match f with
    | none => .ok (none, ⟨-1, [], false⟩)
    | some f =>
      let r := f.fread space
      if broken ∧ (r.2.length : Int) < space then .ok (none, ⟨-1, r.2, true⟩)
      else .ok (if (r.2.length : Int) < space then none else some r.1, ⟨r.2.length, r.2, false⟩)
  fuel f :=
    match f with
    | none => 1
    | some f => f.content.length - f.off.toNat + 3

end FileInputStream

namespace SkippingFile

/-- skippingfileinputstream.cpp:87-122 with the `ferror` branch, for a file whose readable bytes are followed
by an I/O error (`broken`) or by the end of the file. -/
def readIO (broken : Bool) (s : SkippingFile α) (mn mx : Int) : Res (SkippingFile α × Int × List α) :=
  match s.file with
  | none => .ok ({ s with status := .error }, -2, [])
  | some f =>
    let n := if mx ≤ 0 then max 1024 (max s.buffersize mn) else max mn mx
    let grow := n > s.buffersize
    let n := if grow ∧ mx ≤ 0 then
        let n := max n (2 * s.buffersize)
        if s.size ≠ -1 ∧ n > s.size - s.pos then s.size - s.pos + 1 else n
      else n
    let bufsize := if grow then n else s.buffersize
    if n < 0 ∨ n > bufsize then .fault .outOfBounds
    else
      let r := f.fread n
      let nr : Int := r.2.length
      let pos := r.1.off
      .ok (⟨some r.1, bufsize, pos, if nr ≠ n ∧ ¬ broken ∧ s.size = -1 then pos else s.size,
            if nr ≠ n then (if broken then .error else .eof) else s.status⟩, nr, r.2)

/-- `SkippingFileInputStream` with I/O errors through the virtual interface. -/
def opsIO (broken : Bool) : StreamOps (SkippingFile α) α where
  read s mn mx := s.readIO broken mn mx
  skip s n := .ok (s.skip n)
  reset s q := .ok (s.reset q)
  position s := s.pos
  size s := s.size
  status s := s.status

end SkippingFile

/-- What `::stat` tells (sys/stat.h): the mode with the type bits, the size and the time of the last
modification. -/
structure Stat where
  mode : Nat
  size : Int
  mtime : Int
deriving DecidableEq, Repr

/-- What `fopen(path, "rb")` opens: the readable bytes, whether an I/O error follows them (a directory is
opened and then fails at once), whether `fseeko(SEEK_END)` works, and the size it gives. -/
structure OnDisk where
  bytes : List UInt8
  broken : Bool
  seekable : Bool
  reported : Int
deriving DecidableEq, Repr

/-- The operating system: what is found under a path. -/
structure FileSystem where
  fopen : List UInt8 → Option OnDisk
  stat : List UInt8 → Option Stat

namespace FileStreamOpener

/-- The path that the C library sees: `url.c_str()` ends at the first zero. -/
def cstr (url : List UInt8) : List UInt8 := url.takeWhile (· ≠ 0)

/-- A `FileInputStream` as `FileStreamOpener` opens it: an error (file not opened, fileinputstream.cpp:53-61)
or a stream; `defaultBufferSize` is `1048576` (fileinputstream.cpp:33). -/
def newFile (fs : FileSystem) (path : List UInt8) :
    Res (Option (Bool × BufferedStream (Option (CFile UInt8)) UInt8)) :=
  match fs.fopen path with
  | none => .ok none
  | some f => do
    let s ← FileInputStream.new f.bytes 1048576 f.seekable f.reported
    .ok (some (f.broken, s))

/-- filestreamopener.cpp:37-45: no stream if the status is not `Ok`. -/
def openStream (fs : FileSystem) (url : List UInt8) :
    Res (Option (Bool × BufferedStream (Option (CFile UInt8)) UInt8)) := do
  match ← newFile fs (cstr url) with
  | none => .ok none
  | some (b, s) => if s.status ≠ .ok then .ok none else .ok (some (b, s))

/-- `url.rfind('/')` -/
def rfindSlash (url : List UInt8) : Option Nat :=
  match url.reverse.findIdx? (· == 47) with
  | none => none
  | some i => some (url.length - 1 - i)

/-- filestreamopener.cpp:46-69; `none` for the result `-1`, where `e` is left as it is.  `S_ISREG` and
`S_ISDIR` are `(m & S_IFMT) == S_IFREG` and `== S_IFDIR`. -/
def stat (fs : FileSystem) (url : List UInt8) (e : EntryInfo) : Option EntryInfo :=
  match fs.stat (cstr url) with
  | none => none
  | some s =>
    some { e with
      type := if s.mode &&& 0xF000 = 0x8000 then .file else if s.mode &&& 0xF000 = 0x4000 then .dir else .unknown
      size := s.size
      mtime := s.mtime
      filename := match rfindSlash url with
        | none => url
        | some p => url.drop (p + 1) }

end FileStreamOpener
end Strigi
